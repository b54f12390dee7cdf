import Verif.Spec.Fits
import Verif.Proofs.Sim
import Verif.Model.JointFP
import Verif.Model.Quantile
import Verif.Model.HeapMedian
import Mathlib.Data.List.Induction

/-! # A window that is not exceeded -/

set_option linter.unusedSectionVars false

namespace Verif
open Verif.Spec

/-- A relation indexed by the number of pushes since the last `Clear`. -/
theorem agree_fits {S F : Type} {step : S → MOp F → Go (S × Option Err)} {R : Nat → S → S → Prop} {w : Nat}
    (hp : ∀ n a b x, n < w → R n a b → GoR (fun y z => R (n + 1) y.1 z.1 ∧ y.2 = z.2) (step a (.push x)) (step b (.push x)))
    (hc : ∀ n a b, R n a b → GoR (fun y z => R 0 y.1 z.1 ∧ y.2 = z.2) (step a .clear) (step b .clear)) {a b : S} (h0 : R 0 a b)
    (ops : List (MOp F)) (hf : Fits w ops) :
    Agree (R (since ops).length) [] (Go.runOps (logged step) (a, []) ops) (Go.runOps (logged step) (b, []) ops) := by
  induction ops using List.reverseRecOn with
  | nil => exact ⟨h0, rfl⟩
  | append_singleton ops o ih =>
    have ih := ih fun pre post e => hf pre (post ++ [o]) (by rw [e, List.append_assoc])
    rw [Go.runOps_append, Go.runOps_append]
    rcases e1 : Go.runOps (logged step) (a, []) ops with ⟨a', la⟩ | _ | _ <;>
      rcases e2 : Go.runOps (logged step) (b, []) ops with ⟨b', lb⟩ | _ | _ <;> rw [e1, e2] at ih
    · obtain ⟨hr, hl⟩ := ih
      simp only [List.nil_append] at hl
      subst hl
      have key : GoR (fun y z => R (since (ops ++ [o])).length y.1 z.1 ∧ y.2 = z.2) (step a' o) (step b' o) := by
        cases o with
        | push x =>
          have e : since (ops ++ [MOp.push x]) = since ops ++ [x] := by simp [since, List.foldl_append]
          have hw := hf (ops ++ [.push x]) [] (by simp)
          rw [e, List.length_append, List.length_singleton] at hw ⊢
          exact hp _ _ _ x (by omega) hr
        | clear =>
          have e : since (ops ++ [MOp.clear (F := F)]) = [] := by simp [since, List.foldl_append]
          rw [e]
          exact hc _ _ _ hr
      simp only [Go.val_bind, Go.runOps, logged]
      rcases e1 : step a' o with ⟨a'', x⟩ | _ | _ <;> rcases e2 : step b' o with ⟨b'', y⟩ | _ | _ <;> rw [e1, e2] at key
      · obtain ⟨h1, h2⟩ := key
        simp only at h2
        subst h2
        exact ⟨h1, by simp⟩
      all_goals first | exact key.elim | trivial
    all_goals first | exact ih.elim | trivial

/-- A queue for `w` elements holding at most `n`. -/
structure Room {α : Type} (w n : Nat) (q : Ring α) : Prop where
  open_ : q.disposed = false
  cap : q.cap = Ring.roundUp w
  len : q.items.length ≤ n

theorem Room.new {α : Type} (w : Nat) : Room w 0 (Ring.new w : Ring α) := ⟨rfl, rfl, le_rfl⟩

theorem Room.ne {α : Type} {w n : Nat} {q : Ring α} (h : Room w n q) (hn : n < w) : (q.len : Int) ≠ w := by
  have := h.len
  rw [Ring.len]; omega

theorem Room.put {α : Type} {w n : Nat} {q : Ring α} (h : Room w n q) (hn : n < w) (x : α) :
    ∃ q', q.put x = .val (.ok q') ∧ Room w (n + 1) q' := by
  have h1 := Ring.le_roundUp w
  have h2 := h.len
  exact ⟨_, Ring.put_ok h.open_ (by rw [h.cap]; omega) x, h.open_, h.cap, by simpa using h2⟩

theorem Room.mono {α : Type} {w n : Nat} {q : Ring α} (h : Room w n q) : Room w (n + 1) q := ⟨h.open_, h.cap, h.len.trans (Nat.le_succ n)⟩

/-! ### The moment core -/

namespace FP
variable {F : Type} (A : Arith F)
open Moment (Core)

/-- The same core with and without a window. -/
def Wide (w n : Nat) (a b : Core F) : Prop := b.window = 0 ∧ ∃ q, a = { b with window := w, queue := q } ∧ Room w n q

theorem pushAdd_wide (c : Core F) (w : Int) (q : Ring F) (x : F) :
    pushAdd A { c with window := w, queue := q } x = (pushAdd A c x).bind fun r => .val ({ r.1 with window := w, queue := q }, r.2) := by
  unfold pushAdd
  cases h : c.decay with
  | none =>
    simp only [h, add]
    rcases addLoop A (A.ofInt (c.count + 1)) (A.sub x c.mean) (c.len - 1) c.sums with s | _ | _ <;> rfl
  | some d =>
    simp only [h, addDecay]
    rcases decayLoop A (if c.count + 1 = 1 then A.ofInt 1 else d) (A.sub x c.mean) (c.len - 1) c.sums with s | _ | _ <;> rfl

theorem pushAdd_window (c : Core F) (x : F) {r : Core F × Option Err} (h : pushAdd A c x = .val r) : r.1.window = c.window := by
  unfold pushAdd at h
  cases hd : c.decay with
  | none =>
    simp only [hd, add] at h
    rcases e : addLoop A (A.ofInt (c.count + 1)) (A.sub x c.mean) (c.len - 1) c.sums with s | _ | _ <;> rw [e] at h <;> cases h <;> rfl
  | some d =>
    simp only [hd, addDecay] at h
    rcases e : decayLoop A (if c.count + 1 = 1 then A.ofInt 1 else d) (A.sub x c.mean) (c.len - 1) c.sums with s | _ | _ <;> rw [e] at h <;>
      cases h <;> rfl

theorem push_wide {w n : Nat} {a b : Core F} (hn : n < w) (h : Wide w n a b) (x : F) :
    GoR (fun y z => Wide w (n + 1) y.1 z.1 ∧ y.2 = z.2) (push A a x) (push A b x) := by
  obtain ⟨hb, q, rfl, hq⟩ := h
  obtain ⟨q', e', hq'⟩ := hq.put hn x
  have h1 : push A { b with window := (w : Int), queue := q } x = pushAdd A { b with window := (w : Int), queue := q' } x := by
    simp only [push, evict]
    rw [if_pos (by omega), if_neg (hq.ne hn)]
    simp only [e']
  have h2 : push A b x = pushAdd A b x := by
    unfold push
    rw [if_neg (by simpa using hb)]
  rw [h1, h2, pushAdd_wide]
  rcases e : pushAdd A b x with r | _ | _
  · exact ⟨⟨(pushAdd_window A b x e).trans hb, q', rfl, hq'⟩, rfl⟩
  all_goals trivial

theorem run_wide {w : Nat} {a b : Core F} (h0 : Wide w 0 a b) (ops : List (MOp F)) (hf : Fits w ops) :
    Agree (Wide w (since ops).length) [] (run A a ops) (run A b ops) := by
  refine agree_fits (step := step A) (R := Wide w) (fun n a b x hn h => push_wide A hn h x) ?_ h0 ops hf
  rintro n a b ⟨hb, q, rfl, hq⟩
  exact ⟨⟨hb, Ring.new w, by simp [clear], Room.new w⟩, rfl⟩

end FP

/-! ### The joint core -/

namespace JFP
variable {F : Type} (A : FP.Arith F)
open Joint (Core)

/-- The same core with and without a window. -/
def Wide (w n : Nat) (a b : Core F) : Prop := b.window = 0 ∧ ∃ q, a = { b with window := w, queue := q } ∧ Room w n q

theorem finish_wide (r : Rule F) (delta : List F) (c : Core F) (w : Int) (q : Ring (List F)) :
    finish A r delta { c with window := w, queue := q } =
        (finish A r delta c).bind (fun r => .val ({ r.1 with window := w, queue := q }, r.2)) ∧
      ∀ y, finish A r delta c = .val y → y.1.window = c.window := by
  unfold finish
  rcases e : updateAll A r delta c.sums c.tuples c.newSums with ⟨ns, _ | e⟩ | _ | _
  · exact ⟨rfl, by rintro y ⟨⟩; rfl⟩
  · exact ⟨rfl, by rintro y ⟨⟩; rfl⟩
  · exact ⟨rfl, by rintro y ⟨⟩⟩
  · exact ⟨rfl, by rintro y ⟨⟩⟩

theorem pushAdd_wide (c : Core F) (w : Int) (q : Ring (List F)) (xs : List F) :
    pushAdd A { c with window := w, queue := q } xs =
        (pushAdd A c xs).bind (fun r => .val ({ r.1 with window := w, queue := q }, r.2)) ∧
      ∀ y, pushAdd A c xs = .val y → y.1.window = c.window := by
  unfold pushAdd
  cases h : c.decay with
  | none =>
    have := finish_wide A (addRule A (A.ofInt (c.count + 1))) (List.zipWith (fun x m => A.sub x m) xs c.means)
      { c with count := c.count + 1, means := List.zipWith (fun m d => A.add m (A.div d (A.ofInt (c.count + 1)))) c.means
                (List.zipWith (fun x m => A.sub x m) xs c.means) } w q
    simp only [h, add] at this ⊢
    exact this
  | some d =>
    have := finish_wide A (decayRule A (if c.count + 1 = 1 then A.ofInt 1 else d)) (List.zipWith (fun x m => A.sub x m) xs c.means)
      { c with count := c.count + 1, means := List.zipWith (fun m e => A.add m (A.mul (if c.count + 1 = 1 then A.ofInt 1 else d) e)) c.means
                (List.zipWith (fun x m => A.sub x m) xs c.means) } w q
    simp only [h, addDecay] at this ⊢
    exact this

theorem push_wide {w n : Nat} {a b : Core F} (hn : n < w) (h : Wide w n a b) (xs : List F) :
    GoR (fun y z => Wide w (n + 1) y.1 z.1 ∧ y.2 = z.2) (push A a xs) (push A b xs) := by
  obtain ⟨hb, q, rfl, hq⟩ := h
  obtain ⟨q', e', hq'⟩ := hq.put hn xs
  by_cases hl : xs.length ≠ b.means.length
  · unfold push
    rw [if_pos hl, if_pos hl]
    exact ⟨⟨hb, q, rfl, hq.mono⟩, rfl⟩
  have h1 : push A { b with window := (w : Int), queue := q } xs = pushAdd A { b with window := (w : Int), queue := q' } xs := by
    simp only [push, evict, pushPut]
    rw [if_neg hl, if_pos (by omega), if_neg (hq.ne hn)]
    simp only [e']
  have h2 : push A b xs = pushAdd A b xs := by
    unfold push
    rw [if_neg hl, if_neg (by simpa using hb)]
  rw [h1, h2, (pushAdd_wide A b w q' xs).1]
  rcases e : pushAdd A b xs with r | _ | _
  · exact ⟨⟨((pushAdd_wide A b w q' xs).2 r e).trans hb, q', rfl, hq'⟩, rfl⟩
  all_goals trivial

theorem run_wide {w : Nat} {a b : Core F} (h0 : Wide w 0 a b) (ops : List (MOp (List F))) (hf : Fits w ops) :
    Agree (Wide w (since ops).length) [] (run A a ops) (run A b ops) := by
  refine agree_fits (step := step A) (R := Wide w) (fun n a b x hn h => push_wide A hn h x) ?_ h0 ops hf
  rintro n a b ⟨hb, q, rfl, hq⟩
  exact ⟨⟨hb, Ring.new w, by simp [clear], Room.new w⟩, rfl⟩

end JFP

/-! ### Quantile -/

namespace Quant.Quantile
variable {F : Type} {st : Statistic F}

/-- The same metric with and without a window. -/
def Wide (w n : Nat) (a b : Quantile st) : Prop := b.window = 0 ∧ ∃ q, a = { b with window := w, queue := q } ∧ Room w n q

theorem push_wide {w n : Nat} {a b : Quantile st} (hn : n < w) (h : Wide w n a b) (x : F) :
    GoR (fun y z => Wide w (n + 1) y.1 z.1 ∧ y.2 = z.2) (push a x) (push b x) := by
  obtain ⟨hb, q, rfl, hq⟩ := h
  obtain ⟨q', e', hq'⟩ := hq.put hn x
  simp only [push]
  rw [if_pos (by omega), if_neg (hq.ne hn), if_neg (by simpa using hb)]
  simp only [push.put, e', push.add]
  rcases st.add b.statistic x with s | _ | _
  · exact ⟨⟨hb, q', rfl, hq'⟩, rfl⟩
  all_goals trivial

theorem run_wide {w : Nat} {a b : Quantile st} (h0 : Wide w 0 a b) (ops : List (MOp F)) (hf : Fits w ops) :
    Agree (Wide w (since ops).length) [] (run a ops) (run b ops) := by
  refine agree_fits (step := step) (R := Wide w) (fun n a b x hn h => push_wide hn h x) ?_ h0 ops hf
  rintro n a b ⟨hb, q, rfl, hq⟩
  exact ⟨⟨hb, Ring.new w, by simp [clear], Room.new w⟩, rfl⟩

end Quant.Quantile

/-! ### HeapMedian -/

namespace HeapMedian
variable {F : Type} [GoOrd F]

/-- The same metric with and without a window. -/
def Wide (w n : Nat) (a b : HM F) : Prop := b.window = 0 ∧ ∃ q, a = { b with window := w, queue := q } ∧ Room w n q

theorem rebalance_wide (s : HM F) (w : Int) (q : Ring Nat) (i : Nat) :
    rebalance { s with window := w, queue := q } i = (rebalance s i).bind (fun r => .val ({ r.1 with window := w, queue := q }, r.2)) ∧
      ∀ y, rebalance s i = .val y → y.1.window = s.window := by
  unfold rebalance
  dsimp only
  split_ifs
  · rcases Heap.pop s.mem s.high with r | _ | _
    · rcases h : Heap.push r.2.1 s.low r.1 with p | _ | _ <;> simp only [Go.val_bind, h] <;>
        exact ⟨rfl, by rintro y ⟨⟩; try rfl⟩
    all_goals exact ⟨rfl, by rintro y ⟨⟩⟩
  · rcases Heap.pop s.mem s.low with r | _ | _
    · rcases h : Heap.push r.2.1 s.high r.1 with p | _ | _ <;> simp only [Go.val_bind, h] <;>
        exact ⟨rfl, by rintro y ⟨⟩; try rfl⟩
    all_goals exact ⟨rfl, by rintro y ⟨⟩⟩
  · exact ⟨rfl, by rintro y ⟨⟩; rfl⟩

theorem insert_wide (s : HM F) (w : Int) (q : Ring Nat) (x : F) :
    insert { s with window := w, queue := q } x = (insert s x).bind (fun r => .val ({ r.1 with window := w, queue := q }, r.2)) ∧
      ∀ y, insert s x = .val y → y.1.window = s.window := by
  have key : ∀ (m : Heap.Mem F) (b : Bool),
      ((if b then do
          let r ← Heap.push m s.low s.next
          pure (({ s with window := w, queue := q, mem := r.1, low := r.2, next := s.next + 1 } : HM F), s.next)
        else do
          let r ← Heap.push m s.high s.next
          pure ({ s with window := w, queue := q, mem := r.1, high := r.2, next := s.next + 1 }, s.next)) =
        Go.bind (if b then do
          let r ← Heap.push m s.low s.next
          pure (({ s with mem := r.1, low := r.2, next := s.next + 1 } : HM F), s.next)
        else do
          let r ← Heap.push m s.high s.next
          pure ({ s with mem := r.1, high := r.2, next := s.next + 1 }, s.next))
          (fun r => .val ({ r.1 with window := w, queue := q }, r.2))) ∧
      ∀ y, (if b then do
          let r ← Heap.push m s.low s.next
          pure (({ s with mem := r.1, low := r.2, next := s.next + 1 } : HM F), s.next)
        else do
          let r ← Heap.push m s.high s.next
          pure ({ s with mem := r.1, high := r.2, next := s.next + 1 }, s.next)) = Go.val y → y.1.window = s.window := by
    intro m b
    cases b
    · simp only [Bool.false_eq_true, if_false]
      rcases Heap.push m s.high s.next with p | _ | _ <;> exact ⟨rfl, by rintro y ⟨⟩; try rfl⟩
    · simp only [if_true]
      rcases Heap.push m s.low s.next with p | _ | _ <;> exact ⟨rfl, by rintro y ⟨⟩; try rfl⟩
  unfold insert
  dsimp only
  split_ifs
  · exact key _ true
  · rcases Heap.peek (⟨Heap.upd s.mem.val s.next x, Heap.upd s.mem.hid s.next "", Heap.upd s.mem.idx s.next 0⟩ : Heap.Mem F) s.low with p | _ | _
    · exact key _ (x ≤ᵇ p)
    all_goals exact ⟨rfl, by rintro y ⟨⟩⟩

theorem push_wide {w n : Nat} {a b : HM F} (hn : n < w) (h : Wide w n a b) (x : F) :
    GoR (fun y z => Wide w (n + 1) y.1 z.1 ∧ y.2 = z.2) (push a x) (push b x) := by
  obtain ⟨hb, q, rfl, hq⟩ := h
  simp only [push]
  rw [if_neg fun c => hq.ne hn c.2, if_neg fun c => c.1 hb, (insert_wide b w q x).1]
  rcases e : insert b x with ⟨s, i⟩ | _ | _
  · have hs := (insert_wide b w q x).2 _ e
    simp only [Go.bind, Go.val_bind]
    rw [(rebalance_wide s w q i).1]
    rcases e2 : rebalance s i with ⟨t, j⟩ | _ | _
    · have ht := (rebalance_wide s w q i).2 _ e2
      simp only [Go.bind, Go.val_bind, enqueue]
      obtain ⟨q', e', hq'⟩ := hq.put hn j
      simp only [e']
      rw [if_pos (by omega), if_neg (by simp only [ne_eq, not_not]; simp only at hs ht; omega)]
      exact ⟨⟨by simp only at hs ht ⊢; omega, q', rfl, hq'⟩, rfl⟩
    all_goals trivial
  all_goals trivial

theorem run_wide {w : Nat} {a b : HM F} (h0 : Wide w 0 a b) (ops : List (MOp F)) (hf : Fits w ops) :
    Agree (Wide w (since ops).length) [] (run a ops) (run b ops) := by
  refine agree_fits (step := step) (R := Wide w) (fun n a b x hn h => push_wide hn h x) ?_ h0 ops hf
  rintro n a b ⟨hb, q, rfl, hq⟩
  exact ⟨⟨hb, Ring.new w, by simp [clear], Room.new w⟩, rfl⟩

end HeapMedian
end Verif
