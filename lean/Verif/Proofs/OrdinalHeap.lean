import Verif.Proofs.OrdinalMetrics

/-! # HeapMedian of transformed data -/

set_option linter.unusedSectionVars false

namespace Verif
open Verif.Spec

theorem GoR.ite {α β : Type} {R : α → β → Prop} {p q : Prop} [Decidable p] [Decidable q] {a b : Go α} {a' b' : Go β} (hp : p ↔ q)
    (ha : GoR R a a') (hb : GoR R b b') : GoR R (if p then a else b) (if q then a' else b') := by
  by_cases h : p
  · rw [if_pos h, if_pos (hp.1 h)]; exact ha
  · rw [if_neg h, if_neg (fun c => h (hp.2 c))]; exact hb

variable {F G : Type} [GoOrd F] [GoOrd G] {φ : F → G}

namespace Heap

/-- The same items with transformed values. -/
structure MemR (φ : F → G) (m : Mem F) (m' : Mem G) : Prop where
  val : ∀ a, m'.val a = φ (m.val a)
  hid : m'.hid = m.hid
  idx : m'.idx = m.idx

/-- The same heap with transformed values. -/
structure HeapR (φ : F → G) (h : Heap F) (h' : Heap G) : Prop where
  id : h'.id = h.id
  items : h'.items = h.items
  cmp : ∀ a b, h'.cmp (φ a) (φ b) = h.cmp a b

/-- Both. -/
def PairR (φ : F → G) (r : Mem F × Heap F) (r' : Mem G × Heap G) : Prop := MemR φ r.1 r'.1 ∧ HeapR φ r.2 r'.2

variable {m : Mem F} {m' : Mem G} {h : Heap F} {h' : Heap G}

theorem HeapR.len (H : HeapR φ h h') : h'.len = h.len := by unfold Heap.len; rw [H.items]

theorem less_r (M : MemR φ m m') (H : HeapR φ h h') (i j : Nat) : less m' h' i j = less m h i j := by
  unfold less
  rw [H.items]
  rcases h.items[i]? with _ | a <;> rcases h.items[j]? with _ | b <;> try rfl
  simp only [M.val, H.cmp]

theorem swap_r (M : MemR φ m m') (H : HeapR φ h h') (i j : Nat) : GoR (PairR φ) (swap m h i j) (swap m' h' i j) := by
  unfold swap
  rw [H.items]
  rcases h.items[i]? with _ | a <;> rcases h.items[j]? with _ | b <;> try trivial
  exact ⟨⟨M.val, M.hid, by simp only [M.idx]⟩, ⟨H.id, rfl, H.cmp⟩⟩

theorem rawPush_r (M : MemR φ m m') (H : HeapR φ h h') (a : Nat) : PairR φ (rawPush m h a) (rawPush m' h' a) :=
  ⟨⟨M.val, by simp only [rawPush, M.hid, H.id], by simp only [rawPush, M.idx, H.items]⟩, ⟨H.id, by simp only [rawPush, H.items], H.cmp⟩⟩

theorem rawPop_r (M : MemR φ m m') (H : HeapR φ h h') :
    GoR (fun r r' => r'.1 = r.1 ∧ PairR φ r.2 r'.2) (rawPop m h) (rawPop m' h') := by
  unfold rawPop
  rw [H.items]
  cases h.items.getLast? with
  | none => trivial
  | some a => exact ⟨rfl, ⟨M.val, M.hid, by simp only [M.idx]⟩, ⟨H.id, rfl, H.cmp⟩⟩

theorem peek_r (M : MemR φ m m') (H : HeapR φ h h') : GoR (fun v v' => v' = φ v) (peek m h) (peek m' h') := by
  unfold peek
  rw [H.items]
  cases h.items with
  | nil => trivial
  | cons a l => exact M.val a

theorem up_r (fuel : Nat) (M : MemR φ m m') (H : HeapR φ h h') (j : Nat) : GoR (PairR φ) (up fuel m h j) (up fuel m' h' j) := by
  induction fuel generalizing m m' h h' j with
  | zero => trivial
  | succ fuel ih =>
    refine GoR.ite Iff.rfl ⟨M, H⟩ ?_
    rw [less_r M H]
    cases less m h j ((j - 1) / 2) with
    | panic => trivial
    | hang => trivial
    | val b => exact GoR.ite Iff.rfl ((swap_r M H _ _).bind fun r r' hr => ih hr.1 hr.2 _) ⟨M, H⟩

/-- A position besides. -/
def PosR (φ : F → G) (r : Mem F × Heap F × Nat) (r' : Mem G × Heap G × Nat) : Prop :=
  MemR φ r.1 r'.1 ∧ HeapR φ r.2.1 r'.2.1 ∧ r'.2.2 = r.2.2

theorem down_r (fuel : Nat) (M : MemR φ m m') (H : HeapR φ h h') (i n : Nat) : GoR (PosR φ) (down fuel m h i n) (down fuel m' h' i n) := by
  induction fuel generalizing m m' h h' i with
  | zero => trivial
  | succ fuel ih =>
    refine GoR.ite Iff.rfl ⟨M, H, rfl⟩ ?_
    have key : ∀ j, GoR (PosR φ) (do
        let b ← less m h j i
        if b then do
          let r ← swap m h i j
          down fuel r.1 r.2 j n
        else .val (m, h, i)) (do
        let b ← less m' h' j i
        if b then do
          let r ← swap m' h' i j
          down fuel r.1 r.2 j n
        else .val (m', h', i)) := by
      intro j
      rw [less_r M H]
      cases less m h j i with
      | panic => trivial
      | hang => trivial
      | val b => exact GoR.ite Iff.rfl ((swap_r M H _ _).bind fun r r' hr => ih hr.1 hr.2 _) ⟨M, H, rfl⟩
    refine GoR.bind (R := fun a b => b = a) (GoR.ite Iff.rfl ?_ rfl) fun j j' e => by subst e; exact key _
    rw [less_r M H]
    cases less m h (2 * i + 1 + 1) (2 * i + 1) with
    | panic => trivial
    | hang => trivial
    | val b => exact rfl

theorem push_r (M : MemR φ m m') (H : HeapR φ h h') (a : Nat) : GoR (PairR φ) (push m h a) (push m' h' a) := by
  unfold push
  have := rawPush_r M H a
  simp only [this.2.len]
  exact up_r _ this.1 this.2 _

theorem pop_r (M : MemR φ m m') (H : HeapR φ h h') : GoR (fun r r' => r'.1 = r.1 ∧ PairR φ r.2 r'.2) (pop m h) (pop m' h') := by
  unfold pop
  rw [H.len]
  refine GoR.ite Iff.rfl trivial ?_
  refine (swap_r M H _ _).bind fun r r' hr => ?_
  exact (down_r _ hr.1 hr.2 _ _).bind fun s s' hs => rawPop_r hs.1 hs.2.1

theorem fix_r (M : MemR φ m m') (H : HeapR φ h h') (i : Int) : GoR (PairR φ) (fix m h i) (fix m' h' i) := by
  unfold fix
  rw [H.len]
  refine GoR.ite Iff.rfl ⟨M, H⟩ ?_
  refine (down_r _ M H _ _).bind fun r r' hr => ?_
  exact GoR.ite (by rw [hr.2.2]) ⟨hr.1, hr.2.1⟩ (up_r _ hr.1 hr.2.1 _)

theorem removeAt_r (M : MemR φ m m') (H : HeapR φ h h') (i : Int) : GoR (PairR φ) (removeAt m h i) (removeAt m' h' i) := by
  unfold removeAt
  rw [H.len]
  refine GoR.ite Iff.rfl trivial ?_
  refine GoR.bind (R := PairR φ) (GoR.ite Iff.rfl ?_ ⟨M, H⟩) fun r r' hr => (rawPop_r hr.1 hr.2).bind fun t t' ht => ht.2
  refine (swap_r M H _ _).bind fun r r' hr => ?_
  refine (down_r _ hr.1 hr.2 _ _).bind fun s s' hs => ?_
  exact GoR.ite (by rw [hs.2.2]) ⟨hs.1, hs.2.1⟩ (up_r _ hs.1 hs.2.1 _)

theorem setVal_r (M : MemR φ m m') (a : Nat) (x : F) : MemR φ { m with val := upd m.val a x } { m' with val := upd m'.val a (φ x) } := by
  refine ⟨fun b => ?_, M.hid, M.idx⟩
  simp only [upd]
  split
  · rfl
  · exact M.val b

theorem update_r (M : MemR φ m m') (H : HeapR φ h h') (a : Nat) (x : F) : GoR (PairR φ) (update m h a x) (update m' h' a (φ x)) := by
  unfold update
  have := fix_r (setVal_r M a x) H (m.idx a)
  rw [M.idx] at this ⊢
  exact this

theorem remove_r (M : MemR φ m m') (H : HeapR φ h h') (a : Nat) : GoR (PairR φ) (remove m h a) (remove m' h' a) := by
  unfold remove
  rw [M.idx]
  exact removeAt_r M H _

end Heap

namespace HeapMedian
open Heap

/-- The same metric with transformed values. -/
structure HMR (φ : F → G) (s : HM F) (s' : HM G) : Prop where
  window : s'.window = s.window
  mem : MemR φ s.mem s'.mem
  next : s'.next = s.next
  low : HeapR φ s.low s'.low
  high : HeapR φ s.high s'.high
  queue : s'.queue = s.queue

variable {s : HM F} {s' : HM G}

theorem rebalance_r (H : HMR φ s s') (item : Nat) :
    GoR (fun r r' => HMR φ r.1 r'.1 ∧ r'.2 = r.2) (rebalance s item) (rebalance s' item) := by
  unfold rebalance
  rw [H.low.len, H.high.len]
  refine GoR.ite Iff.rfl ?_ (GoR.ite Iff.rfl ?_ ⟨H, rfl⟩)
  · refine (pop_r H.mem H.high).bind fun r r' hr => ?_
    rw [hr.1]
    exact (push_r hr.2.1 H.low _).bind fun q q' hq => ⟨⟨H.window, hq.1, H.next, hq.2, hr.2.2, H.queue⟩, rfl⟩
  · refine (pop_r H.mem H.low).bind fun r r' hr => ?_
    rw [hr.1]
    exact (push_r hr.2.1 H.high _).bind fun q q' hq => ⟨⟨H.window, hq.1, H.next, hr.2.2, hq.2, H.queue⟩, rfl⟩

theorem replace_r (hφ : OrdMap φ) (H : HMR φ s s') (item : Nat) (x : F) : GoR (HMR φ) (replace s item x) (replace s' item (φ x)) := by
  unfold replace
  refine GoR.ite (by rw [H.mem.hid, H.low.id]) ?_ ?_
  · refine (peek_r H.mem H.low).bind fun p p' hp => ?_
    subst hp
    refine GoR.ite (by rw [hφ.le]) ?_ (GoR.ite (by rw [hφ.lt]) ?_ ?_)
    · exact (update_r H.mem H.low item x).bind fun r r' hr => ⟨H.window, hr.1, H.next, hr.2, H.high, H.queue⟩
    · refine (remove_r H.mem H.low item).bind fun r r' hr => ?_
      exact (push_r (setVal_r hr.1 item x) H.high item).bind fun q q' hq => ⟨H.window, hq.1, H.next, hr.2, hq.2, H.queue⟩
    · refine (remove_r H.mem H.high item).bind fun r r' hr => ?_
      exact (push_r (setVal_r hr.1 item x) H.low item).bind fun q q' hq => ⟨H.window, hq.1, H.next, hq.2, hr.2, H.queue⟩
  · refine (peek_r H.mem H.low).bind fun p p' hp => ?_
    subst hp
    refine GoR.ite (by rw [hφ.lt]) ?_ ?_
    · exact (update_r H.mem H.high item x).bind fun r r' hr => ⟨H.window, hr.1, H.next, H.low, hr.2, H.queue⟩
    · refine (remove_r H.mem H.high item).bind fun r r' hr => ?_
      exact (push_r (setVal_r hr.1 item x) H.low item).bind fun q q' hq => ⟨H.window, hq.1, H.next, hq.2, hr.2, H.queue⟩

theorem insert_r (hφ : OrdMap φ) (H : HMR φ s s') (x : F) :
    GoR (fun r r' => HMR φ r.1 r'.1 ∧ r'.2 = r.2) (insert s x) (insert s' (φ x)) := by
  unfold insert
  have M : MemR φ ⟨upd s.mem.val s.next x, upd s.mem.hid s.next "", upd s.mem.idx s.next 0⟩
      ⟨upd s'.mem.val s'.next (φ x), upd s'.mem.hid s'.next "", upd s'.mem.idx s'.next 0⟩ := by
    rw [H.next, H.mem.hid, H.mem.idx]
    exact ⟨(setVal_r H.mem s.next x).val, rfl, rfl⟩
  have hpush : ∀ b : Bool, GoR (fun r r' => HMR φ r.1 r'.1 ∧ r'.2 = r.2) (if b then do
        let r ← Heap.push ⟨upd s.mem.val s.next x, upd s.mem.hid s.next "", upd s.mem.idx s.next 0⟩ s.low s.next
        pure ({ s with mem := r.1, low := r.2, next := s.next + 1 }, s.next)
      else do
        let r ← Heap.push ⟨upd s.mem.val s.next x, upd s.mem.hid s.next "", upd s.mem.idx s.next 0⟩ s.high s.next
        pure ({ s with mem := r.1, high := r.2, next := s.next + 1 }, s.next)) (if b then do
        let r ← Heap.push ⟨upd s'.mem.val s'.next (φ x), upd s'.mem.hid s'.next "", upd s'.mem.idx s'.next 0⟩ s'.low s'.next
        pure ({ s' with mem := r.1, low := r.2, next := s'.next + 1 }, s'.next)
      else do
        let r ← Heap.push ⟨upd s'.mem.val s'.next (φ x), upd s'.mem.hid s'.next "", upd s'.mem.idx s'.next 0⟩ s'.high s'.next
        pure ({ s' with mem := r.1, high := r.2, next := s'.next + 1 }, s'.next)) := by
    intro b
    have hn := H.next
    refine GoR.ite Iff.rfl ?_ ?_
    · refine GoR.bind (R := PairR φ) (by rw [hn] at M ⊢; exact push_r M H.low _) fun r r' hr => ?_
      exact ⟨⟨H.window, hr.1, by rw [hn], hr.2, H.high, H.queue⟩, hn⟩
    · refine GoR.bind (R := PairR φ) (by rw [hn] at M ⊢; exact push_r M H.high _) fun r r' hr => ?_
      exact ⟨⟨H.window, hr.1, by rw [hn], H.low, hr.2, H.queue⟩, hn⟩
  refine GoR.bind (R := fun a b => b = a) (GoR.ite (by rw [H.low.len]) rfl ?_) fun b b' e => by subst e; exact hpush _
  exact (peek_r M H.low).bind fun p p' hp => by subst hp; exact hφ.le x p

theorem enqueue_r (H : HMR φ s s') (item : Nat) :
    GoR (fun r r' => HMR φ r.1 r'.1 ∧ r'.2 = r.2) (enqueue s item) (enqueue s' item) := by
  unfold enqueue
  rw [H.queue]
  refine GoR.ite (by rw [H.window]) ?_ ⟨H, rfl⟩
  rcases s.queue.put item with (e | q) | _ | _
  · exact ⟨H, rfl⟩
  · exact ⟨⟨H.window, H.mem, H.next, H.low, H.high, rfl⟩, rfl⟩
  · trivial
  · trivial

theorem push_r (hφ : OrdMap φ) (H : HMR φ s s') (x : F) :
    GoR (fun r r' => HMR φ r.1 r'.1 ∧ r'.2 = r.2) (push s x) (push s' (φ x)) := by
  unfold push
  rw [H.queue]
  refine GoR.ite (by rw [H.window]) ?_ ?_
  · rcases s.queue.get with (e | ⟨item, q⟩) | _ | _
    · exact ⟨H, rfl⟩
    · refine GoR.bind (R := HMR φ) 
        (replace_r hφ (s := { s with queue := q }) (s' := { s' with queue := q }) ⟨H.window, H.mem, H.next, H.low, H.high, rfl⟩ item x) fun s s' hs => ?_
      refine (rebalance_r hs item).bind fun r r' hr => ?_
      rw [hr.2]
      exact enqueue_r hr.1 _
    · trivial
    · trivial
  · refine (insert_r hφ H x).bind fun r r' hr => ?_
    rw [hr.2]
    refine (rebalance_r hr.1 _).bind fun r r' hr => ?_
    rw [hr.2]
    exact enqueue_r hr.1 _

theorem empty_r (hφ : OrdMap φ) (id : String) : HeapR φ (⟨id, [], fmax⟩ : Heap.Heap F) ⟨id, [], fmax⟩ ∧
    HeapR φ (⟨id, [], fmin⟩ : Heap.Heap F) ⟨id, [], fmin⟩ :=
  ⟨⟨rfl, rfl, fun a b => hφ.lt b a⟩, ⟨rfl, rfl, fun a b => hφ.lt a b⟩⟩

theorem run_r (hφ : OrdMap φ) (H : HMR φ s s') (log : List Err) (ops : List (MOp F)) :
    GoR (fun r r' => HMR φ r.1 r'.1 ∧ r'.2 = r.2) (Go.runOps (logged step) (s, log) ops)
      (Go.runOps (logged step) (s', log) (ops.map (MOp.map φ))) := by
  induction ops generalizing s s' log with
  | nil => exact ⟨H, rfl⟩
  | cons o ops ih =>
    have h1 : GoR (fun r r' => HMR φ r.1 r'.1 ∧ r'.2 = r.2) (step s o) (step s' (o.map φ)) := by
      cases o with
      | push x => exact push_r hφ H x
      | clear =>
        refine ⟨⟨H.window, H.mem, H.next, (empty_r hφ "low").1, (empty_r hφ "high").2, ?_⟩, rfl⟩
        show Ring.new s'.window.toNat = Ring.new s.window.toNat
        rw [H.window]
    simp only [List.map_cons, Go.runOps, logged]
    rcases e1 : step s o with ⟨a, x⟩ | _ | _ <;> rcases e2 : step s' (o.map φ) with ⟨b, y⟩ | _ | _ <;> rw [e1, e2] at h1 <;>
      first | exact h1.elim | trivial | skip
    obtain ⟨h2, h3⟩ := h1
    simp only at h3
    subst h3
    exact ih h2 _

theorem fresh_r (hφ : OrdMap φ) (zero : F) (w : Int) : HMR φ (fresh zero w) (fresh (φ zero) w) :=
  ⟨rfl, ⟨fun _ => rfl, rfl, rfl⟩, rfl, (empty_r hφ "low").1, (empty_r hφ "high").2, rfl⟩

end HeapMedian
end Verif
