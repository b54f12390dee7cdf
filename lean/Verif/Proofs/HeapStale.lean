import Verif.Proofs.HeapMedian

/-! # `HeapMedian` with a window: which items are evicted

A push that makes the heaps unbalanced queues the item that changed heaps instead of the new one. When the second value is not greater than
the first, the first item is queued twice and evicted twice: the second time it holds the value pushed just before. -/

set_option linter.unusedSimpArgs false

namespace Verif.HeapMedian
open Verif Verif.Heap Verif.Spec

variable {F : Type} [LinearOrder F]

theorem swap_val {m m' : Mem F} {h h' : Heap.Heap F} {i j : Nat} (e : swap m h i j = .val (m', h')) : m'.val = m.val := by
  unfold swap at e
  split at e <;> cases e
  rfl

theorem up_val : ∀ {fuel : Nat} {m m' : Mem F} {h h' : Heap.Heap F} {j : Nat}, up fuel m h j = .val (m', h') → m'.val = m.val := by
  intro fuel
  induction fuel with
  | zero => intro m m' h h' j e; cases e
  | succ n ih =>
    intro m m' h h' j e
    unfold up at e
    simp only at e
    split_ifs at e
    · cases e; rfl
    · obtain ⟨b, -, e⟩ := Go.bind_eq_val.1 e
      split_ifs at e
      · obtain ⟨r, e1, e⟩ := Go.bind_eq_val.1 e
        rw [ih e, swap_val e1]
      · cases e; rfl

theorem heap_push_val {m m' : Mem F} {h h' : Heap.Heap F} {a : Nat} (e : Heap.push m h a = .val (m', h')) : m'.val = m.val := by
  have := up_val e
  simpa [rawPush] using this

theorem insert_val {s s' : HM F} {x : F} {it : Nat} (e : insert s x = .val (s', it)) :
    it = s.next ∧ s'.mem.val = upd s.mem.val s.next x := by
  unfold insert at e
  simp only at e
  obtain ⟨b, -, e⟩ := Go.bind_eq_val.1 e
  split_ifs at e
  · obtain ⟨r, e1, e⟩ := Go.bind_eq_val.1 e
    cases e
    exact ⟨rfl, heap_push_val e1⟩
  · obtain ⟨r, e1, e⟩ := Go.bind_eq_val.1 e
    cases e
    exact ⟨rfl, heap_push_val e1⟩

/-- A push into a window that is not full: an item is appended to the queue, no stored value changes. -/
theorem I.grow {w : Nat} {xs : List F} {s : HM F} (h : I w xs s) (hw : 2 ≤ w) (hlt : xs.length < w) (x : F) {s' : HM F}
    (e : HeapMedian.push s x = .val (s', none)) :
    (∃ it, s'.queue.items = s.queue.items ++ [it]) ∧ ∀ a ∈ all s, s'.mem.val a = s.mem.val a := by
  have hsz := h.size
  have hal := all_length s
  have hll : (lastN w xs).length = xs.length := by rw [lastN_length, if_neg (by omega)]; omega
  have hq : s.queue.items.length ≠ w := by rw [h.qlen (by omega), hsz]; omega
  obtain ⟨s1, it1, e1, c1, m1, p1, ct1, l1⟩ := insert_spec h.c (fun e => by
    by_contra hne
    exact h.lne (by simp [all, hne]) e) x
  have hlow := h.lo; have hhigh := h.hi
  obtain ⟨s2, it, e2, c2, m2, p2, v2, hit, -⟩ := rebalance_spec c1 (item := it1) (p1.mem_iff.2 (by simp)) (by
    rcases l1 with ⟨l1, l2⟩ | ⟨l1, l2, -⟩ <;> constructor <;> omega)
  have hqs : s2.queue = s.queue := m2.2.trans m1.2
  have hws : s2.window = w := m2.1.trans (m1.1.trans h.win)
  obtain ⟨qq, e3, k1, k2, k3, k4⟩ := enqueue_spec (s := s2) hws (by rw [hqs]; exact h.cap) (by rw [hqs]; exact h.live)
    (by intro h0; rw [hqs, h.qlen h0, hsz]; omega) it
  unfold HeapMedian.push at e
  rw [if_neg (by
    rintro ⟨h1, h2⟩
    rw [h.win] at h2
    exact hq (by exact_mod_cast h2)), e1, Go.val_bind, e2, Go.val_bind, e3] at e
  cases e
  refine ⟨⟨it, by rw [← hqs]; exact k4 (by omega)⟩, fun a ha => ?_⟩
  show s2.mem.val a = _
  rw [v2, (insert_val e1).2]
  have : a ≠ s.next := fun e => absurd (h.c.fresh _ (e ▸ ha)) (lt_irrefl _)
  simp [upd, this]

/-- A push into a full window: the value of the item at the front of the queue is replaced. -/
theorem I.evict {w : Nat} {xs : List F} {s : HM F} (h : I w xs s) (hw : 2 ≤ w) {a : Nat} {q : List Nat} (hqe : s.queue.items = a :: q)
    (hq : s.queue.items.length = w) (x : F) {s' : HM F} (e : HeapMedian.push s x = .val (s', none)) :
    (∃ it, s'.queue.items = q ++ [it]) ∧ s'.mem.val = upd s.mem.val a x ∧ content s' = x ::ₘ (content s).erase (s.mem.val a) := by
  have hw0 : w ≠ 0 := by omega
  have hal := all_length s
  have hlen : (all s).length = w := (h.qlen hw0).symm.trans hq
  have ha : a ∈ all s := h.qmem a (by simp [hqe])
  have hlow := h.lo; have hhigh := h.hi
  have hlne : s.low.items ≠ [] := h.lne (by intro e; rw [e] at hlen; simp at hlen; omega)
  obtain ⟨s1, e1, c1, m1, p1, v1, l1⟩ := replace_spec (h.c.queue { s.queue with items := q }) (item := a) ha hlne x
  have p1' : (all s1).Perm (all s) := p1
  obtain ⟨s2, it, e2, c2, m2, p2, v2, hit, -⟩ := rebalance_spec c1 (item := a) (p1.mem_iff.2 ha) (by
    simp only at l1
    rcases l1 with ⟨l1, l2, -⟩ | ⟨l1, l2, -⟩ | ⟨l1, l2⟩ <;> constructor <;> omega)
  have hqs : s2.queue = { s.queue with items := q } := m2.2.trans m1.2
  have hws : s2.window = w := m2.1.trans (m1.1.trans h.win)
  have hql : q.length + 1 = w := by rw [hqe] at hq; simpa using hq
  obtain ⟨qq, e3, k1, k2, -, k4⟩ := enqueue_spec (s := s2) hws (by rw [hqs]; exact h.cap) (by rw [hqs]; exact h.live)
    (by intro _; rw [hqs]; simp only; omega) it
  have hcont : content s2 = x ::ₘ (content s).erase (s.mem.val a) := by
    rw [content_perm p2 v2, content, v1]
    rw [Multiset.coe_eq_coe.2 (p1'.map _)]
    exact content_upd h.c.nodup ha _ _
  unfold HeapMedian.push at e
  have hget : s.queue.get = .val (.ok (a, { s.queue with items := q })) := Ring.get_ok h.live hqe
  rw [if_pos ⟨by rw [h.win]; exact_mod_cast hw0, by rw [h.win]; exact_mod_cast hq⟩, hget] at e
  simp only at e
  rw [e1, Go.val_bind, e2, Go.val_bind, e3] at e
  cases e
  refine ⟨⟨it, by rw [k4 hw0, hqs]⟩, v2.trans v1, hcont⟩

/-- The first two pushes, the second value not greater than the first. -/
theorem two_pushes {w : Nat} (hw : 2 ≤ w) (zero : F) {x y : F} (hxy : y ≤ x) :
    ∃ s, run (fresh zero w) [.push x, .push y] = .val (s, []) ∧ s.queue.items = [0, 0] ∧ s.mem.val 0 = x ∧ 0 ∈ all s := by
  have hr := Ring.le_roundUp w
  have h1 : ¬ (w : Int) = 0 := by omega
  have h2 : ¬ (1 : Int) = w := by omega
  have h3 : ¬ (0 : Int) = w := by omega
  have h4 : ¬ Ring.roundUp w ≤ 1 := by omega
  have h5 : ¬ Ring.roundUp w = 0 := by omega
  have h6 : ¬ w = 0 := by omega
  have h8 : 0 < Ring.roundUp w := by omega
  have h9 : 1 < Ring.roundUp w := by omega
  have h7 : ¬ x < y := not_lt.2 hxy
  refine ⟨_, by
    simp [run, Go.runOps, logged, step, HeapMedian.push, fresh, Ring.new, Ring.len, insert, Heap.len, Heap.push, rawPush, up, rebalance, enqueue, Ring.put,
      peek, upd, GoOrd.le, GoOrd.lt, h1, h2, h3, h4, h5, h6, h7, h8, h9, hxy, less, fmax, fmin, pop, swap, down, rawPop]
    rfl, ?_, ?_, ?_⟩ <;> simp [upd, all]

theorem run_snoc {s s' : HM F} {ops : List (MOp F)} {x : F} (h : run s ops = .val (s', [])) {t : HM F} (e : push s' x = .val (t, none)) :
    run s (ops ++ [.push x]) = .val (t, []) := by
  unfold run at h ⊢
  rw [Go.runOps_append, h]
  simp [Go.runOps, logged, step, e]

/-- Until the window is full the first item stays twice at the front of the queue. -/
theorem grow_run {w : Nat} (hw : 2 ≤ w) (zero : F) {x y : F} (hxy : y ≤ x) (zs : List F) (hz : zs.length + 2 ≤ w) :
    ∃ s q, run (fresh zero w) ((x :: y :: zs).map .push) = .val (s, []) ∧ I w (x :: y :: zs) s ∧ s.queue.items = 0 :: 0 :: q ∧ s.mem.val 0 = x := by
  induction zs using List.reverseRecOn with
  | nil =>
    obtain ⟨s, e, hq, hv, -⟩ := two_pushes hw zero hxy
    obtain ⟨s', e', hi⟩ := run_inv (w := w) (by omega) zero [.push x, .push y]
    rw [e] at e'
    cases e'
    exact ⟨s, [], e, hi, hq, hv⟩
  | append_singleton zs z ih =>
    simp only [List.length_append, List.length_singleton] at hz
    obtain ⟨s, q, e, hi, hq, hv⟩ := ih (by omega)
    obtain ⟨s', e', hi'⟩ := hi.push (by omega) z
    obtain ⟨⟨it, g1⟩, g2⟩ := hi.grow hw (by simp; omega) z e'
    refine ⟨s', q ++ [it], ?_, hi', by rw [g1, hq]; rfl, ?_⟩
    · have := run_snoc e e'
      simpa using this
    · rw [g2 0 (hi.qmem 0 (by simp [hq])), hv]

/-- What is stored two pushes after the window is full. -/
theorem stale {w : Nat} (hw : 2 ≤ w) (zero : F) {x y u v : F} (hxy : y ≤ x) (zs : List F) (hz : zs.length + 2 = w) :
    ∃ s, run (fresh zero w) ((x :: y :: (zs ++ [u, v])).map .push) = .val (s, []) ∧ I w (x :: y :: (zs ++ [u, v])) s ∧
      content s = ((y :: (zs ++ [v]) : List F) : Multiset F) := by
  obtain ⟨s, q, e, hi, hq, hv⟩ := grow_run hw zero hxy zs hz.le
  have hc : content s = ((x :: y :: zs : List F) : Multiset F) := hi.exact (.inr (by simp; omega))
  have hl : s.queue.items.length = w := by
    rw [hi.qlen (by omega), hi.size, lastN_length, if_neg (by omega)]
    simp; omega
  obtain ⟨s1, e1, hi1⟩ := hi.push (by omega) u
  obtain ⟨⟨it, g1⟩, g2, g3⟩ := hi.evict hw hq hl u e1
  obtain ⟨s2, e2, hi2⟩ := hi1.push (by omega) v
  have hl1 : s1.queue.items.length = w := by
    rw [g1]
    rw [hq] at hl
    simpa using hl
  obtain ⟨-, -, k3⟩ := hi1.evict hw (a := 0) (q := q ++ [it]) (by rw [g1]; rfl) hl1 v e2
  refine ⟨s2, ?_, by simpa using hi2, ?_⟩
  · have := run_snoc (run_snoc e e1) e2
    simpa using this
  · rw [k3, g2, g3, hc, hv, ← Multiset.cons_coe x, Multiset.erase_cons_head]
    simp only [upd, if_true, Multiset.erase_cons_head]
    rw [← Multiset.cons_coe y, ← Multiset.cons_coe y, ← Multiset.coe_add, Multiset.cons_swap, add_comm]
    rfl

end Verif.HeapMedian
