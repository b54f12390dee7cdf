import Verif.Proofs.ClearSkip
import Verif.Proofs.QuantileWeak

/-! # `Clear` of `Quantile` -/

set_option linter.unusedSectionVars false

namespace Verif.Quant
open Verif Verif.Spec Verif.Skip

section eq
variable {F : Type} {st : Statistic F}

theorem push_frame {q q' : Quantile st} {x : F} {o : Option Err} (h : q.push x = .val (q', o)) :
    q'.window = q.window ∧ q'.interpolation = q.interpolation := by
  have hadd : ∀ {p : Quantile st}, Quantile.push.add x p = .val (q', o) → q'.window = p.window ∧ q'.interpolation = p.interpolation := by
    intro p h
    unfold Quantile.push.add at h
    split at h
    · cases h
    · cases h
    · cases h; exact ⟨rfl, rfl⟩
  have hput : ∀ {p : Quantile st}, Quantile.push.put x p = .val (q', o) → q'.window = p.window ∧ q'.interpolation = p.interpolation := by
    intro p h
    unfold Quantile.push.put at h
    split at h
    · cases h
    · cases h
    · cases h; exact ⟨rfl, rfl⟩
    · rename_i r _
      exact hadd (p := { p with queue := r }) h
  unfold Quantile.push at h
  split at h
  · split at h
    · split at h
      · cases h
      · cases h
      · cases h; exact ⟨rfl, rfl⟩
      · rename_i y r _
        split at h
        · cases h
        · cases h
        · rename_i s _
          exact hput (p := { q with queue := r, statistic := s }) h
    · exact hput h
  · exact hadd h

theorem run_frame {q : Quantile st} {ops : List (MOp F)} {q' : Quantile st} {es : List Err}
    (h : Go.runOps (logged Quantile.step) (q, []) ops = .val (q', es)) :
    q'.window = q.window ∧ q'.interpolation = q.interpolation := by
  refine logged_inv (P := fun p : Quantile st => p.window = q.window ∧ p.interpolation = q.interpolation) ?_ ops _ _ _ _ ⟨rfl, rfl⟩ h
  intro s a s' o hs e
  cases a with
  | clear => cases e; exact hs
  | push x =>
    have := push_frame e
    exact ⟨this.1.trans hs.1, this.2.trans hs.2⟩

end eq

variable {F : Type} {M : Nat} {d d' : Nat → Nat → Bool}

section sim
variable [GoOrd F]

/-- Equal up to the node addresses of the skip list. -/
structure QR (k : Nat) (q : Quantile (skipStat F M d)) (q' : Quantile (skipStat F M d')) : Prop where
  window : q.window = q'.window
  interp : q.interpolation = q'.interpolation
  queue : q.queue = q'.queue
  stat : SR k (F := F) q.statistic q'.statistic

/-- Results of a push, related. -/
def QS (k : Nat) (r : Quantile (skipStat F M d) × Option Err) (r' : Quantile (skipStat F M d') × Option Err) : Prop :=
  QR k r.1 r'.1 ∧ r.2 = r'.2

variable {k : Nat} {q : Quantile (skipStat F M d)} {q' : Quantile (skipStat F M d')}

theorem qadd_sim (r : QR k q q') (x : F) : GoS (QS k) (Quantile.push.add x q) (Quantile.push.add x q') := by
  intro b hb
  unfold Quantile.push.add at hb ⊢
  cases e : (skipStat F M d').add q'.statistic x with
  | panic => rw [e] at hb; cases hb
  | hang => rw [e] at hb; cases hb
  | val t' =>
    rw [e] at hb
    cases hb
    obtain ⟨t, e2, r2⟩ := add_sim r.stat x t' e
    have e3 : (skipStat F M d).add q.statistic x = .val t := e2
    rw [e3]
    exact ⟨_, rfl, ⟨r.window, r.interp, r.queue, r2⟩, rfl⟩

theorem qput_sim (r : QR k q q') (x : F) : GoS (QS k) (Quantile.push.put x q) (Quantile.push.put x q') := by
  intro b hb
  unfold Quantile.push.put at hb ⊢
  rw [r.queue]
  cases e : q'.queue.put x with
  | panic => rw [e] at hb; cases hb
  | hang => rw [e] at hb; cases hb
  | val t =>
    rw [e] at hb
    cases t with
    | error e => cases hb; exact ⟨_, rfl, r, rfl⟩
    | ok t => exact qadd_sim (q := { q with queue := t }) (q' := { q' with queue := t }) ⟨r.window, r.interp, rfl, r.stat⟩ x b hb

theorem qpush_sim (r : QR k q q') (x : F) : GoS (QS k) (q.push x) (q'.push x) := by
  intro b hb
  unfold Quantile.push at hb ⊢
  by_cases h1 : q'.window ≠ 0
  · rw [if_pos h1] at hb
    rw [if_pos (show q.window ≠ 0 by rw [r.window]; exact h1)]
    by_cases h2 : (q'.queue.len : Int) = q'.window
    · rw [if_pos h2] at hb
      rw [if_pos (show (q.queue.len : Int) = q.window by rw [r.window, r.queue]; exact h2), r.queue]
      cases e : q'.queue.get with
      | panic => rw [e] at hb; cases hb
      | hang => rw [e] at hb; cases hb
      | val t =>
        rw [e] at hb
        cases t with
        | error e => cases hb; exact ⟨_, rfl, r, rfl⟩
        | ok t =>
          obtain ⟨y, t⟩ := t
          simp only at hb ⊢
          cases e2 : (skipStat F M d').remove q'.statistic y with
          | panic => rw [e2] at hb; cases hb
          | hang => rw [e2] at hb; cases hb
          | val s' =>
            rw [e2] at hb
            obtain ⟨s, e3, r2⟩ := remove_sim r.stat y s' e2
            have e4 : (skipStat F M d).remove q.statistic y = .val s := e3
            rw [e4]
            exact qput_sim (q := { q with queue := t, statistic := s }) (q' := { q' with queue := t, statistic := s' })
              ⟨r.window, r.interp, rfl, r2⟩ x b hb
    · rw [if_neg h2] at hb
      rw [if_neg (show ¬ (q.queue.len : Int) = q.window by rw [r.window, r.queue]; exact h2)]
      exact qput_sim r x b hb
  · rw [if_neg h1] at hb
    rw [if_neg (show ¬ q.window ≠ 0 by rw [r.window]; exact h1)]
    exact qadd_sim r x b hb

theorem qstep_sim (r : QR k q q') (o : MOp F) : GoS (QS k) (q.step o) (q'.step o) := by
  cases o with
  | push x => exact qpush_sim r x
  | clear => exact GoS.val ⟨⟨r.window, r.interp, by simp [Quantile.clear, r.window], clear_sim r.stat⟩, rfl⟩

theorem qrun_sim (es : List Err) : ∀ (ops : List (MOp F)) (q : Quantile (skipStat F M d)) (q' : Quantile (skipStat F M d')) (l l' : List Err),
    QR k q q' → l = es ++ l' → GoS (fun x y => QR k x.1 y.1 ∧ x.2 = es ++ y.2)
      (Go.runOps (logged Quantile.step) (q, l) ops) (Go.runOps (logged Quantile.step) (q', l') ops) := by
  intro ops
  induction ops with
  | nil => intro q q' l l' r e; exact GoS.val ⟨r, e⟩
  | cons o ops ih =>
    intro q q' l l' r e b hb
    simp only [Go.runOps, logged] at hb ⊢
    cases e1 : q'.step o with
    | panic => rw [e1] at hb; cases hb
    | hang => rw [e1] at hb; cases hb
    | val t' =>
      obtain ⟨t, e2, r2, e3⟩ := qstep_sim r o t' e1
      rw [e1] at hb
      rw [e2]
      exact ih t.1 t'.1 _ _ r2 (by simp [e, e3]) b hb

end sim

section total
variable [LinearOrder F] [Nonempty F]

theorem qpush_total (hM : 0 < M) {w : Nat} {i : Int} {ys : List F} {q : Quantile (skipStat F M d)}
    (h : WInv (Skip.Rep M) w i (lastN w ys) q) (x : F) : ∃ r, q.push x = .val r := by
  have hadd : ∀ (p : Quantile (skipStat F M d)) (S : Multiset F), Skip.Rep M S p.statistic → ∃ r, Quantile.push.add x p = .val r := by
    intro p S hr
    obtain ⟨s1, e1, -⟩ := hr.step (.add x)
    have : (skipStat F M d).add p.statistic x = .val s1 := e1
    exact ⟨({ p with statistic := s1 }, none), by simp [Quantile.push.add, this]⟩
  have hput : ∀ (p : Quantile (skipStat F M d)) (S : Multiset F), Skip.Rep M S p.statistic → p.queue.disposed = false →
      p.queue.items.length < p.queue.cap → ∃ r, Quantile.push.put x p = .val r := by
    intro p S hr h1 h2
    simp only [Quantile.push.put, Ring.put_ok h1 h2]
    exact hadd _ S hr
  unfold Quantile.push
  by_cases hw : w = 0
  · subst hw
    rw [if_neg (by simp [h.window])]
    exact hadd q _ h.rep
  · have hcap := Ring.le_roundUp w
    have hl := h.len hw
    rw [if_pos (by rw [h.window]; exact_mod_cast hw)]
    by_cases hf : (lastN w ys).length = w
    · rw [if_pos (by rw [Ring.len, h.queue hw, h.window, hf])]
      rcases hx : lastN w ys with _ | ⟨y, zs⟩
      · rw [hx] at hf; simp at hf; omega
      · rw [hx] at h hf
        rw [Ring.get_ok h.live (h.queue hw)]
        obtain ⟨s1, e1, h2⟩ := h.rep.step (.remove y)
        have : (skipStat F M d).remove q.statistic y = .val s1 := e1
        simp only [this]
        exact hput _ _ h2 h.live (by simp only [h.cap]; simp at hf; omega)
    · rw [if_neg (by rw [Ring.len, h.queue hw, h.window]; exact_mod_cast hf)]
      exact hput q _ h.rep h.live (by rw [h.queue hw, h.cap]; omega)

/-- A quantile over a skip list takes every stream without panic or error. -/
theorem qrun_total (hM : 0 < M) (w : Nat) (i : Int) (ops : List (MOp F)) :
    ∃ q, (Quantile.fresh (skipStat F M d) w i).run ops = .val (q, []) := by
  induction ops using List.reverseRecOn with
  | nil => exact ⟨_, rfl⟩
  | append_singleton ops o ih =>
    obtain ⟨q, h⟩ := ih
    obtain ⟨-, h2⟩ := run_weak (skipStat_weak hM d) w i ops h
    unfold Quantile.run at h ⊢
    rw [Go.runOps_append, h]
    cases o with
    | clear => exact ⟨q.clear, by simp [Go.runOps, logged, Quantile.step]⟩
    | push x =>
      obtain ⟨⟨q1, oe⟩, e⟩ := qpush_total hM (ys := since ops) h2 x
      obtain ⟨rfl, -⟩ := push_weak (skipStat_weak hM d) (ys := since ops) h2 x e
      exact ⟨q1, by simp [Go.runOps, logged, Quantile.step, e]⟩

theorem qkept (ops : List (MOp F)) (w : Int) (i : Int) (q : Quantile (skipStat F M d)) (es : List Err)
    (h : (Quantile.fresh (skipStat F M d) w i).run ops = .val (q, es)) : ∃ n, Kept M d n (F := F) q.statistic := by
  refine logged_inv (P := fun p : Quantile (skipStat F M d) => ∃ n, Kept M d n (F := F) p.statistic) ?_ ops _ _ _ _ ?_ h
  · intro s a s' o hs e
    obtain ⟨n, hs⟩ := hs
    cases a with
    | clear => cases e; exact ⟨n, clear_kept hs⟩
    | push x =>
      have hadd : ∀ (p : Quantile (skipStat F M d)) n, Kept M d n (F := F) p.statistic → Quantile.push.add x p = .val (s', o) →
          ∃ n, Kept M d n (F := F) s'.statistic := by
        intro p n hp h
        unfold Quantile.push.add at h
        split at h
        · cases h
        · cases h
        · rename_i t e5; cases h; exact ⟨_, add_kept hp x t e5⟩
      have hput : ∀ (p : Quantile (skipStat F M d)) n, Kept M d n (F := F) p.statistic → Quantile.push.put x p = .val (s', o) →
          ∃ n, Kept M d n (F := F) s'.statistic := by
        intro p n hp h
        unfold Quantile.push.put at h
        split at h
        · cases h
        · cases h
        · cases h; exact ⟨n, hp⟩
        · rename_i r _
          exact hadd { p with queue := r } n hp h
      simp only [Quantile.step, Quantile.push] at e
      split at e
      · split at e
        · split at e
          · cases e
          · cases e
          · cases e; exact ⟨n, hs⟩
          · rename_i y r _
            split at e
            · cases e
            · cases e
            · rename_i t et
              exact hput { s with queue := r, statistic := t } n (remove_kept hs y t et) e
        · exact hput s n hs e
      · exact hadd s n hs e
  · exact ⟨0, rfl, Nat.one_pos, rfl, rfl, rfl⟩

end total

end Verif.Quant
