import Verif.Proofs.Cost
import Verif.Proofs.Window
import Verif.Proofs.Rb
import Verif.Proofs.RbWeak
import Verif.Proofs.MinMax
import Verif.Proofs.Tuple
import Verif.Model.Quantile

/-! # How much the metrics keep (for C85 and C86) -/

namespace Verif.HeapMedian
open Verif Verif.Spec Heap
variable {F : Type} [GoOrd F]

omit [GoOrd F] in
theorem rebalance_frame {s : HM F} {item : Nat} {r : HM F × Nat} (e : rebalance s item = .val r) :
    r.1.stored = s.stored ∧ r.1.window = s.window ∧ r.1.queue = s.queue := by
  unfold rebalance at e
  split at e
  · obtain ⟨a, e1, e⟩ := Go.bind_eq_val.1 e
    obtain ⟨b, e2, e⟩ := Go.bind_eq_val.1 e
    injection e with e; subst e
    have := pop_len e1; have := push_len e2
    refine ⟨?_, rfl, rfl⟩
    simp only [HM.stored]; omega
  · split at e
    · obtain ⟨a, e1, e⟩ := Go.bind_eq_val.1 e
      obtain ⟨b, e2, e⟩ := Go.bind_eq_val.1 e
      injection e with e; subst e
      have := pop_len e1; have := push_len e2
      refine ⟨?_, rfl, rfl⟩
      simp only [HM.stored]; omega
    · injection e with e; subst e; exact ⟨rfl, rfl, rfl⟩

theorem replace_frame {s s' : HM F} {item : Nat} {x : F} (e : replace s item x = .val s') : s'.window = s.window ∧ s'.queue = s.queue := by
  unfold replace at e
  split at e <;> obtain ⟨p, -, e⟩ := Go.bind_eq_val.1 e
  · split at e
    · obtain ⟨r, e1, e⟩ := Go.bind_eq_val.1 e
      injection e with e; subst e; exact ⟨rfl, rfl⟩
    · split at e <;>
      · obtain ⟨r, e1, e⟩ := Go.bind_eq_val.1 e
        obtain ⟨q, e2, e⟩ := Go.bind_eq_val.1 e
        injection e with e; subst e; exact ⟨rfl, rfl⟩
  · split at e
    · obtain ⟨r, e1, e⟩ := Go.bind_eq_val.1 e
      injection e with e; subst e; exact ⟨rfl, rfl⟩
    · obtain ⟨r, e1, e⟩ := Go.bind_eq_val.1 e
      obtain ⟨q, e2, e⟩ := Go.bind_eq_val.1 e
      injection e with e; subst e; exact ⟨rfl, rfl⟩

theorem insert_frame {s : HM F} {x : F} {r : HM F × Nat} (e : insert s x = .val r) : r.1.window = s.window ∧ r.1.queue = s.queue := by
  unfold insert at e
  obtain ⟨b, -, e⟩ := Go.bind_eq_val.1 e
  split at e <;>
  · obtain ⟨q, e2, e⟩ := Go.bind_eq_val.1 e
    injection e with e; subst e; exact ⟨rfl, rfl⟩

/-- Sizes of the parts after the pushes `xs` since the last `Clear`. -/
structure Shape (w : Nat) (xs : List F) (s : HM F) : Prop where
  window : s.window = w
  cap : s.queue.cap = Ring.roundUp w
  live : s.queue.disposed = false
  queue : s.queue.items.length = if w = 0 then 0 else (lastN w xs).length
  stored : s.stored = (lastN w xs).length

omit [GoOrd F] in
theorem enqueue_shape {w : Nat} {n : Nat} {s : HM F} {item : Nat} (hw : s.window = w) (hc : s.queue.cap = Ring.roundUp w) (hl : s.queue.disposed = false)
    (hq : s.queue.items.length = if w = 0 then 0 else n) (hn : w ≠ 0 → n < w) :
    ∃ s', enqueue s item = .val (s', none) ∧ s'.window = w ∧ s'.queue.cap = Ring.roundUp w ∧ s'.queue.disposed = false ∧
      (s'.queue.items.length = if w = 0 then 0 else n + 1) ∧ s'.stored = s.stored := by
  unfold enqueue
  by_cases h0 : w = 0
  · rw [if_neg (by rw [hw, h0]; simp)]
    exact ⟨_, rfl, hw, hc, hl, by rw [hq, if_pos h0, if_pos h0], rfl⟩
  · rw [if_pos (by rw [hw]; exact_mod_cast h0)]
    rw [if_neg h0] at hq
    have := hn h0
    have := Ring.le_roundUp w
    rw [Ring.put_ok hl (by omega)]
    exact ⟨_, rfl, hw, hc, hl, by rw [if_neg h0]; simp [hq], rfl⟩

theorem push_shape {w : Nat} {xs : List F} {s : HM F} (h : Shape w xs s) {x : F} {r : HM F × Option Err} (e : push s x = .val r) :
    r.2 = none ∧ Shape w (xs ++ [x]) r.1 := by
  have hlen := lastN_length w (xs ++ [x])
  have hlen0 := lastN_length w xs
  simp only [List.length_append, List.length_singleton] at hlen
  unfold push at e
  split at e
  · rename_i hfull
    have h0 : w ≠ 0 := by have := hfull.1; rw [h.window] at this; exact_mod_cast this
    have hq := h.queue
    rw [if_neg h0] at hq hlen hlen0
    have hf : s.queue.items.length = w := by have := hfull.2; rw [h.window] at this; exact_mod_cast this
    obtain ⟨y, ys, hy⟩ : ∃ y ys, s.queue.items = y :: ys := by
      cases hs : s.queue.items with
      | nil => rw [hs] at hf; simp at hf; omega
      | cons y ys => exact ⟨y, ys, rfl⟩
    rw [Ring.get_ok h.live hy] at e
    simp only at e
    obtain ⟨s1, e1, e⟩ := Go.bind_eq_val.1 e
    obtain ⟨r1, e2, e⟩ := Go.bind_eq_val.1 e
    obtain ⟨f1, f2⟩ := replace_frame e1
    obtain ⟨g1, g2, g3⟩ := rebalance_frame e2
    have hst := replace_stored e1
    have hys : ys.length + 1 = w := by rw [hy] at hf; simpa using hf
    obtain ⟨s', e', a1, a2, a3, a4, a5⟩ := enqueue_shape (w := w) (n := ys.length) (s := r1.1) (item := r1.2)
      (by rw [g2, f1]; exact h.window) (by rw [g3, f2]; exact h.cap) (by rw [g3, f2]; exact h.live)
      (by rw [g3, f2, if_neg h0]) (fun _ => by omega)
    rw [e'] at e; injection e with e; subst e
    refine ⟨rfl, a1, a2, a3, ?_, ?_⟩
    · rw [a4, if_neg h0, if_neg h0, hlen]; omega
    · have h1 := h.stored
      have h2 : ({ s with queue := { s.queue with items := ys } } : HM F).stored = s.stored := rfl
      rw [a5, g1, hst, h2, h1, hlen, hlen0]; omega
  · rename_i hnf
    obtain ⟨s1, e1, e⟩ := Go.bind_eq_val.1 e
    obtain ⟨r1, e2, e⟩ := Go.bind_eq_val.1 e
    obtain ⟨f1, f2⟩ := insert_frame e1
    obtain ⟨g1, g2, g3⟩ := rebalance_frame e2
    have hst := insert_stored e1
    have hlt : w ≠ 0 → (lastN w xs).length < w := by
      intro h0
      have hq := h.queue
      rw [if_neg h0] at hq
      have := lastN_length_le h0 xs
      have : s.queue.items.length ≠ w := by
        intro c; apply hnf; rw [h.window]; exact ⟨by exact_mod_cast h0, by unfold Ring.len; exact_mod_cast c⟩
      omega
    obtain ⟨s', e', a1, a2, a3, a4, a5⟩ := enqueue_shape (w := w) (n := (lastN w xs).length) (s := r1.1) (item := r1.2)
      (by rw [g2, f1]; exact h.window) (by rw [g3, f2]; exact h.cap) (by rw [g3, f2]; exact h.live)
      (by rw [g3, f2]; exact h.queue) hlt
    rw [e'] at e; injection e with e; subst e
    have hl : (lastN w (xs ++ [x])).length = (lastN w xs).length + 1 := by
      rw [hlen, hlen0]
      rw [hlen0] at hlt
      by_cases h0 : w = 0
      · simp [h0]
      · have := hlt h0
        rw [if_neg h0] at this ⊢
        rw [if_neg h0]; omega
    refine ⟨rfl, a1, a2, a3, ?_, ?_⟩
    · rw [a4, hl]
    · rw [a5, g1, hst, h.stored, hl]

theorem fresh_shape (zero : F) (w : Nat) : Shape w [] (fresh zero w) :=
  ⟨rfl, by simp [fresh, Ring.new], rfl, by simp [fresh, Ring.new], by simp [fresh, HM.stored, Heap.Heap.len]⟩

theorem clear_shape {w : Nat} {xs : List F} {s : HM F} (h : Shape w xs s) : Shape w [] (clear s) :=
  ⟨h.window, by simp [clear, Ring.new, h.window], rfl, by simp [clear, Ring.new], by simp [clear, HM.stored, Heap.Heap.len]⟩

theorem runOps_shape {w : Nat} (ops : List (MOp F)) {pre : List (MOp F)} {s : HM F} (h : Shape w (since pre) s) {r : HM F × List Err}
    (e : Go.runOps (logged step) (s, []) ops = .val r) : r.2 = [] ∧ Shape w (since (pre ++ ops)) r.1 := by
  induction ops generalizing pre s with
  | nil => injection e with e; subst e; exact ⟨rfl, by simpa using h⟩
  | cons o ops ih =>
    cases o with
    | push x =>
      simp only [Go.runOps, logged, step] at e
      cases hp : push s x with
      | panic => rw [hp] at e; cases e
      | hang => rw [hp] at e; cases e
      | val p =>
        obtain ⟨p1, p2⟩ := push_shape h hp
        obtain ⟨s1, o1⟩ := p
        simp only at p1 p2
        subst p1
        rw [hp] at e
        have := ih (pre := pre ++ [.push x]) (s := s1) (by rw [since_push]; exact p2) (by simpa using e)
        simpa using this
    | clear =>
      have := ih (pre := pre ++ [.clear]) (s := clear s) (by rw [since_clear]; exact clear_shape h) (by simpa [Go.runOps, logged, step] using e)
      simpa using this

theorem run_shape (zero : F) (w : Nat) (ops : List (MOp F)) {s : HM F} {log : List Err} (e : run (fresh zero w) ops = .val (s, log)) :
    log = [] ∧ Shape w (since ops) s := by
  have := runOps_shape (pre := []) ops (fresh_shape zero w) e
  simpa using this

end Verif.HeapMedian

namespace Verif.Ring
open Verif

/-- The buffer allocated for a queue of `n` values. -/
theorem roundUp_le (n : Nat) : roundUp n ≤ 2 * n := by
  unfold roundUp
  split_ifs with h
  · omega
  · exact (Nat.log2_self_le (by omega)).trans (by omega)

end Verif.Ring

/-! ### Red-black trees with NaN -/

namespace Verif.Rb.Node
open Verif
variable {F : Type} [GoOrd F]

/-- `add` keeps the shape whatever the comparisons say. -/
theorem add_shape (x : F) {t : Node F} {b : Nat} (h : Inv t b) :
    ∃ t', add t x = .val t' ∧ t'.toList.Perm (x :: t.toList) ∧ (t.color = false → Inv t' b) ∧
      (t.color = true → t'.color = true ∧ (Inv t' b ∨ Inv t'.toggle (b + 1))) := by
  induction t generalizing b with
  | nil =>
    refine ⟨_, rfl, by simp [newNode, toList], fun _ => ?_, by simp [color]⟩
    rw [inv_nil] at h; subst h
    exact inv_red.2 ⟨rfl, rfl, rfl, rfl, rfl⟩
  | node l v r c s ihl ihr =>
    obtain ⟨b', h1, h2, h3, il, ir, hb⟩ := h.node_cases
    simp only [add, color_node]
    split_ifs with hc
    · obtain ⟨l', e, p, k1, k2⟩ := ihl il
      have hp : (l'.toList ++ v :: r.toList).Perm (x :: (node l v r c s).toList) := p.append_right _
      by_cases hw : Inv l' b'
      · obtain ⟨t, e', q, j1, j2⟩ := addBalance_ok (v := v) (c := c) (s := s) hw ir (by simp [h2])
        refine ⟨t, by simp [e, e'], by rw [q]; exact hp, ?_, ?_⟩
        · rintro rfl; simpa [hb] using j1 rfl
        · rintro rfl; simpa [hb] using j2 rfl
      · cases hlc : l.color
        · exact absurd (k1 hlc) hw
        · have hcf : c = false := by
            cases c
            · rfl
            · have := h3 rfl; rw [hlc] at this; cases this
          subst hcf
          obtain ⟨kc, k⟩ := k2 hlc
          obtain ⟨t, e', q, j⟩ := addBalance_weak (v := v) (s := s) (k.resolve_left hw) kc hw ir h2
          refine ⟨t, by simp [e, e'], by rw [q]; exact hp, ?_, by simp⟩
          intro _; simpa [hb] using j
    · obtain ⟨r', e, p, k1, k2⟩ := ihr ir
      obtain ⟨t, e', q, j1, j2⟩ := addBalance_ok (v := v) (c := c) (s := s) il (k1 h2)
        (fun hc => by simp [h3 hc])
      refine ⟨t, by simp [e, e'], ?_, ?_, ?_⟩
      · rw [q]; simp only [toList]
        refine ((p.cons v).append_left _).trans ?_
        exact ((List.Perm.swap x v _).append_left _).trans List.perm_middle
      · rintro rfl; simpa [hb] using j1 rfl
      · rintro rfl; simpa [hb] using j2 rfl

theorem add_toggle_any {t : Node F} (hne : t ≠ nil) (x : F) : add t.toggle x = tog (add t x) := by
  cases t with
  | nil => exact absurd rfl hne
  | node l v r c s =>
    simp only [toggle, add]
    split_ifs
    · cases add l x with
      | panic => rfl
      | hang => rfl
      | val l' => simpa [toggle] using addBalance_toggle (node l' v r c s)
    · cases add r x with
      | panic => rfl
      | hang => rfl
      | val r' => simpa [toggle] using addBalance_toggle (node l v r' c s)

/-- `Add` never fails, whatever the comparisons say, on a tree that only `Add` built. -/
theorem add_root_any (x : F) {t : Node F} (h : RootInv t) :
    ∃ t', add t x = .val t' ∧ RootInv t' ∧ t'.toList.Perm (x :: t.toList) := by
  have base : ∀ {t : Node F} {b : Nat}, Inv t b → ∃ t', add t x = .val t' ∧ RootInv t' ∧ t'.toList.Perm (x :: t.toList) := by
    intro t b h
    obtain ⟨t', e, p, k1, k2⟩ := add_shape x h
    refine ⟨t', e, ?_, p⟩
    cases hc : t.color
    · exact ⟨b, .inl (k1 hc)⟩
    · rcases (k2 hc).2 with k | k
      · exact ⟨b, .inl k⟩
      · exact ⟨b + 1, .inr k⟩
  obtain ⟨b, h | h⟩ := h
  · exact base h
  · by_cases hne : t = nil
    · subst hne; exact base h
    · obtain ⟨t', e, r, p⟩ := base h
      rw [add_toggle_any hne] at e
      cases hh : add t x with
      | panic => rw [hh] at e; cases e
      | hang => rw [hh] at e; cases e
      | val t'' =>
        rw [hh, tog_val] at e; injection e with e; subst e
        have h1 : ∀ t : Node F, t.toggle.toList = t.toList := by intro t; cases t <;> simp [toggle, toList]
        have h2 : ∀ t : Node F, t.toggle.toggle = t := by intro t; cases t <;> simp [toggle]
        rw [h1, h1] at p
        refine ⟨t'', rfl, ?_, p⟩
        have := r.toggle
        rwa [h2] at this

omit [GoOrd F] in
theorem contains_nan {F : Type} [LinearOrder F] (t : Node (WithNaN F)) : t.contains .nan = false := by
  induction t with
  | nil => rfl
  | node l v r c s ihl ihr =>
    simp only [contains]
    have h1 : ((.nan : WithNaN F) =ᵇ v) = false := rfl
    have h2 : ((.nan : WithNaN F) <ᵇ v) = false := rfl
    rw [if_neg (by simp [h1]), if_neg (by simp [h2])]
    exact ihr

/-- A NaN is never found, so never removed. -/
theorem remove_nan {F : Type} [LinearOrder F] (f : Nat) (t : Node (WithNaN F)) : remove (f + 1) t .nan = .val t := by
  rw [remove.eq_def]
  simp only [contains_nan]
  simp

end Verif.Rb.Node

namespace Verif.Quant
open Verif Verif.Spec
variable {F : Type} [LinearOrder F]

/-- A red-black metric that has seen `n` NaN and nothing else. -/
structure NaNs (w : Nat) (n : Nat) (q : Quantile (rbStat (WithNaN F))) : Prop where
  window : q.window = w
  cap : w ≤ q.queue.cap
  live : q.queue.disposed = false
  queue : w ≠ 0 → q.queue.items = List.replicate (min n w) .nan
  shape : (Rb.Tree.root q.statistic).RootInv
  nodes : (Rb.Tree.root q.statistic).toList.length = n

theorem NaNs.push {w n : Nat} {q : Quantile (rbStat (WithNaN F))} (h : NaNs w n q) : ∃ q', q.push .nan = .val (q', none) ∧ NaNs w (n + 1) q' := by
  obtain ⟨r, e, hr, hp⟩ := Rb.Node.add_root_any (.nan : WithNaN F) h.shape
  have ha : (rbStat (WithNaN F)).add q.statistic .nan = .val ⟨r⟩ := by
    show Rb.Tree.add _ _ = _
    simp [Rb.Tree.add, e]; rfl
  have hm : (rbStat (WithNaN F)).remove q.statistic .nan = .val q.statistic := by
    show Rb.Tree.remove _ _ = _
    simp [Rb.Tree.remove, Rb.Node.remove_nan]; rfl
  have hl : r.toList.length = n + 1 := by rw [hp.length_eq, List.length_cons, h.nodes]
  unfold Quantile.push
  by_cases h0 : w = 0
  · rw [if_neg (by rw [h.window, h0]; simp)]
    simp only [Quantile.push.add, ha]
    exact ⟨_, rfl, h.window, h.cap, h.live, fun c => absurd h0 c, hr, hl⟩
  · rw [if_pos (by rw [h.window]; exact_mod_cast h0)]
    have hq := h.queue h0
    have hc := h.cap
    by_cases hf : w ≤ n
    · have hlen : q.queue.items = .nan :: List.replicate (w - 1) .nan := by
        rw [hq, Nat.min_eq_right hf, ← List.replicate_succ]; congr 1; omega
      rw [if_pos (by rw [Ring.len, hlen, h.window]; simp; omega), Ring.get_ok h.live hlen]
      simp only [hm]
      simp only [Quantile.push.put]
      rw [Ring.put_ok (r := ⟨q.queue.cap, List.replicate (w - 1) WithNaN.nan, q.queue.disposed⟩) h.live (by simp; omega)]
      simp only [Quantile.push.add, ha]
      refine ⟨_, rfl, h.window, h.cap, h.live, fun _ => ?_, hr, hl⟩
      simp only
      rw [Nat.min_eq_right (by omega), ← List.replicate_succ']; congr 1; omega
    · have hlen : q.queue.items.length = n := by rw [hq]; simp; omega
      rw [if_neg (by rw [Ring.len, hlen, h.window]; exact_mod_cast (by omega))]
      simp only [Quantile.push.put]
      rw [Ring.put_ok h.live (by omega)]
      simp only [Quantile.push.add, ha]
      refine ⟨_, rfl, h.window, h.cap, h.live, fun _ => ?_, hr, hl⟩
      simp only
      rw [hq, Nat.min_eq_left (by omega), Nat.min_eq_left (by omega), ← List.replicate_succ']

theorem run_nans (w : Nat) (i : Int) (n : Nat) :
    ∃ q, (Quantile.fresh (rbStat (WithNaN F)) w i).run (List.replicate n (.push .nan)) = .val (q, []) ∧ NaNs w n q := by
  induction n with
  | zero =>
    refine ⟨_, rfl, rfl, by simpa [Quantile.fresh, Ring.new] using Ring.le_roundUp w, rfl, fun _ => by simp [Quantile.fresh, Ring.new], ?_, rfl⟩
    exact ⟨0, .inl (Rb.Node.inv_nil.2 rfl)⟩
  | succ n ih =>
    obtain ⟨q, e, h⟩ := ih
    obtain ⟨q', e', h'⟩ := h.push
    refine ⟨q', ?_, h'⟩
    unfold Quantile.run at e ⊢
    rw [List.replicate_succ', Go.runOps_append, e]
    simp [Go.runOps, logged, Quantile.step, e']

end Verif.Quant

/-! ### `Max` and `Min` with NaN -/

namespace Verif.MinMax
open Verif Verif.Spec
variable {F : Type} [LinearOrder F]

theorem Max.run_nans (O : Ext (WithNaN F)) {w : Nat} (hw : w ≠ 0) (n : Nat) :
    ∃ s, Max.run O (Max.fresh O w) (List.replicate n (.push .nan)) = .val (s, []) ∧ s.deque = List.replicate n .nan := by
  have key : ∃ s, Max.run O (Max.fresh O w) (List.replicate n (.push .nan)) = .val (s, []) ∧ s.window = w ∧ w ≤ s.queue.cap ∧
      s.queue.disposed = false ∧ s.queue.items = List.replicate (min n w) .nan ∧ s.deque = List.replicate n .nan := by
    induction n with
    | zero => exact ⟨_, rfl, rfl, by simpa [Max.fresh, Ring.new] using Ring.le_roundUp w, rfl, by simp [Max.fresh, Ring.new], by simp [Max.fresh]⟩
    | succ n ih =>
      obtain ⟨s, e, h1, h2, h3, h4, h5⟩ := ih
      have hpop : ∀ m, Max.popBack (.nan : WithNaN F) (List.replicate m .nan) = (List.replicate m .nan, 0) := by
        intro m; cases m <;> rfl
      suffices hs : ∃ s', Max.push O s .nan = .val (s', none) ∧ s'.window = w ∧ w ≤ s'.queue.cap ∧ s'.queue.disposed = false ∧
          s'.queue.items = List.replicate (min (n + 1) w) .nan ∧ s'.deque = List.replicate (n + 1) .nan by
        obtain ⟨s', e', hs⟩ := hs
        refine ⟨s', ?_, hs⟩
        unfold Max.run at e ⊢
        rw [List.replicate_succ', Go.runOps_append, e]
        simp [Go.runOps, logged, Max.step, e']
      unfold Max.push
      rw [if_pos (by rw [h1]; exact_mod_cast hw)]
      by_cases hf : w ≤ n
      · obtain ⟨m, rfl⟩ : ∃ m, n = m + 1 := ⟨n - 1, by omega⟩
        have hlen : s.queue.items = .nan :: List.replicate (w - 1) .nan := by
          rw [h4, Nat.min_eq_right hf, ← List.replicate_succ]; congr 1; omega
        have hev : Max.evict s = .val (.ok { s with queue := { s.queue with items := List.replicate (w - 1) .nan }, count := s.count - 1 }) := by
          unfold Max.evict
          rw [if_pos (by rw [Ring.len, hlen, h1]; simp; omega), Ring.get_ok h3 hlen]
          simp only [h5, List.replicate_succ]
          rfl
        rw [hev]
        simp only
        rw [Ring.put_ok (r := ⟨s.queue.cap, List.replicate (w - 1) WithNaN.nan, s.queue.disposed⟩) h3 (by simp; omega)]
        refine ⟨_, rfl, h1, h2, h3, ?_, ?_⟩
        · simp only
          rw [Nat.min_eq_right (by omega), ← List.replicate_succ']; congr 1; omega
        · simp only [h5, List.reverse_replicate, hpop]
          rw [← List.replicate_succ']
      · have hlen : s.queue.items.length = n := by rw [h4]; simp; omega
        have hev : Max.evict s = .val (.ok s) := by
          unfold Max.evict
          rw [if_neg (by rw [Ring.len, hlen, h1]; exact_mod_cast (by omega))]
        rw [hev]
        simp only
        rw [Ring.put_ok h3 (by omega)]
        refine ⟨_, rfl, h1, h2, h3, ?_, ?_⟩
        · simp only
          rw [h4, Nat.min_eq_left (by omega), Nat.min_eq_left (by omega), ← List.replicate_succ']
        · simp only [h5, List.reverse_replicate, hpop]
          rw [← List.replicate_succ']
  obtain ⟨s, e, -, -, -, -, h⟩ := key
  exact ⟨s, e, h⟩

theorem Min.run_nans (O : Ext (WithNaN F)) {w : Nat} (hw : w ≠ 0) (n : Nat) :
    ∃ s, Min.run O (Min.fresh O w) (List.replicate n (.push .nan)) = .val (s, []) ∧ s.deque = List.replicate n .nan := by
  have key : ∃ s, Min.run O (Min.fresh O w) (List.replicate n (.push .nan)) = .val (s, []) ∧ s.window = w ∧ w ≤ s.queue.cap ∧
      s.queue.disposed = false ∧ s.queue.items = List.replicate (min n w) .nan ∧ s.deque = List.replicate n .nan := by
    induction n with
    | zero => exact ⟨_, rfl, rfl, by simpa [Min.fresh, Ring.new] using Ring.le_roundUp w, rfl, by simp [Min.fresh, Ring.new], by simp [Min.fresh]⟩
    | succ n ih =>
      obtain ⟨s, e, h1, h2, h3, h4, h5⟩ := ih
      have hpop : ∀ m, Min.popBack (.nan : WithNaN F) (List.replicate m .nan) = (List.replicate m .nan, 0) := by
        intro m; cases m <;> rfl
      suffices hs : ∃ s', Min.push O s .nan = .val (s', none) ∧ s'.window = w ∧ w ≤ s'.queue.cap ∧ s'.queue.disposed = false ∧
          s'.queue.items = List.replicate (min (n + 1) w) .nan ∧ s'.deque = List.replicate (n + 1) .nan by
        obtain ⟨s', e', hs⟩ := hs
        refine ⟨s', ?_, hs⟩
        unfold Min.run at e ⊢
        rw [List.replicate_succ', Go.runOps_append, e]
        simp [Go.runOps, logged, Min.step, e']
      unfold Min.push
      rw [if_pos (by rw [h1]; exact_mod_cast hw)]
      by_cases hf : w ≤ n
      · obtain ⟨m, rfl⟩ : ∃ m, n = m + 1 := ⟨n - 1, by omega⟩
        have hlen : s.queue.items = .nan :: List.replicate (w - 1) .nan := by
          rw [h4, Nat.min_eq_right hf, ← List.replicate_succ]; congr 1; omega
        have hev : Min.evict s = .val (.ok { s with queue := { s.queue with items := List.replicate (w - 1) .nan }, count := s.count - 1 }) := by
          unfold Min.evict
          rw [if_pos (by rw [Ring.len, hlen, h1]; simp; omega), Ring.get_ok h3 hlen]
          simp only [h5, List.replicate_succ]
          rfl
        rw [hev]
        simp only
        rw [Ring.put_ok (r := ⟨s.queue.cap, List.replicate (w - 1) WithNaN.nan, s.queue.disposed⟩) h3 (by simp; omega)]
        refine ⟨_, rfl, h1, h2, h3, ?_, ?_⟩
        · simp only
          rw [Nat.min_eq_right (by omega), ← List.replicate_succ']; congr 1; omega
        · simp only [h5, List.reverse_replicate, hpop]
          rw [← List.replicate_succ']
      · have hlen : s.queue.items.length = n := by rw [h4]; simp; omega
        have hev : Min.evict s = .val (.ok s) := by
          unfold Min.evict
          rw [if_neg (by rw [Ring.len, hlen, h1]; exact_mod_cast (by omega))]
        rw [hev]
        simp only
        rw [Ring.put_ok h3 (by omega)]
        refine ⟨_, rfl, h1, h2, h3, ?_, ?_⟩
        · simp only
          rw [h4, Nat.min_eq_left (by omega), Nat.min_eq_left (by omega), ← List.replicate_succ']
        · simp only [h5, List.reverse_replicate, hpop]
          rw [← List.replicate_succ']
  obtain ⟨s, e, -, -, -, -, h⟩ := key
  exact ⟨s, e, h⟩

end Verif.MinMax

/-! ### The keys of a joint core -/

namespace Verif.Joint
open Verif

theorem visitedRev_length (reverse : Bool) (t : Tuple) : (visitedRev reverse t).length = (t.map fun k => (k + 1).toNat).prod := by
  induction t with
  | nil => rfl
  | cons n rest ih =>
    have hl : (indices reverse n).length = (n + 1).toNat := by unfold indices; cases reverse <;> simp
    simp only [visitedRev, List.length_flatMap, List.length_map, ih, List.map_const', List.sum_replicate, hl, List.map_cons, List.prod_cons,
      smul_eq_mul]

/-- As many tuples lie below `t` as complexity.md says. -/
theorem visited_length (reverse : Bool) (t : Tuple) : (visited reverse t).length = (t.map fun k => (k + 1).toNat).prod := by
  rw [visited, visitedRev_length, List.map_reverse, List.prod_reverse]

end Verif.Joint
