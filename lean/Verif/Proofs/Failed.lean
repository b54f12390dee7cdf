import Verif.Spec.Failed
import Verif.Proofs.Quiet
import Verif.Model.MomentFP
import Verif.Model.JointMetric

/-! # Calls that fail -/

set_option linter.unusedSectionVars false

namespace Verif
open Verif.Spec

theorem runOps_inv {S A : Type} {step : S → A → Go (S × Option Err)} {I : S → Prop}
    (hs : ∀ s o s' e, I s → step s o = .val (s', e) → I s') (ops : List A) :
    ∀ (s s' : S) (l l' : List Err), I s → Go.runOps (logged step) (s, l) ops = .val (s', l') → I s' := by
  induction ops with
  | nil => rintro s s' l l' h ⟨⟩; exact h
  | cons o ops ih =>
    intro s s' l l' h hr
    simp only [Go.runOps, logged] at hr
    rcases e : step s o with ⟨t, x⟩ | _ | _ <;> rw [e] at hr
    · exact ih _ _ _ _ (hs _ _ _ _ h e) hr
    · cases hr
    · cases hr

theorem NeverFails.of_inv {S A : Type} {step : S → A → Go (S × Option Err)} {I : S → Prop} {s : S} (h0 : I s)
    (hs : ∀ s o s' e, I s → step s o = .val (s', e) → e = none ∧ I s') : NeverFails step s := by
  intro before s' es hr
  have hI : I s' := runOps_inv (fun s o s' e h he => (hs s o s' e h he).2) before s s' [] es h0 hr
  refine ⟨?_, fun o s'' e he => by cases (hs _ _ _ _ hI he).1⟩
  have key : ∀ (ops : List A) (s s' : S) (l l' : List Err), I s → Go.runOps (logged step) (s, l) ops = .val (s', l') → l' = l := by
    intro ops
    induction ops with
    | nil => rintro s s' l l' - ⟨⟩; rfl
    | cons o ops ih =>
      intro s s' l l' h hr
      simp only [Go.runOps, logged] at hr
      rcases e : step s o with ⟨t, x⟩ | _ | _ <;> rw [e] at hr
      · obtain ⟨rfl, ht⟩ := hs _ _ _ _ h e
        have := ih _ _ _ _ ht hr
        simpa using this
      · cases hr
      · cases hr
  exact key before s s' [] es h0 hr

theorem AllOrNothing.of_inv {S A : Type} {step : S → A → Go (S × Option Err)} {I : S → Prop} {s : S} (h0 : I s)
    (hs : ∀ s o s' e, I s → step s o = .val (s', e) → I s' ∧ (e ≠ none → s' = s)) : AllOrNothing step s :=
  fun before s' es hr o s'' e he =>
    (hs s' o s'' (some e) (runOps_inv (fun s o s' e h he => (hs s o s' e h he).1) before s s' [] es h0 hr) he).2 (by simp)

theorem NeverFails.allOrNothing {S A : Type} {step : S → A → Go (S × Option Err)} {s : S} (h : NeverFails step s) : AllOrNothing step s :=
  fun before s' es hr o s'' e he => absurd he ((h before s' es hr).2 o s'' e)

theorem Ring.put_open {α : Type} {q : Ring α} (h : q.disposed = false) {x : α} {r : Except Err (Ring α)} (hr : q.put x = .val r) :
    ∃ q', r = .ok q' ∧ q'.disposed = false := by
  unfold Ring.put at hr
  rw [if_neg (by simp [h])] at hr
  split_ifs at hr
  cases hr
  exact ⟨_, rfl, h⟩

theorem Ring.get_open {α : Type} {q : Ring α} (h : q.disposed = false) {r : Except Err (α × Ring α)} (hr : q.get = .val r) :
    ∃ x q', r = .ok (x, q') ∧ q'.disposed = false := by
  unfold Ring.get at hr
  rw [if_neg (by simp [h])] at hr
  split at hr
  · split_ifs at hr
  · cases hr; exact ⟨_, _, rfl, h⟩

namespace FP
variable {F : Type} [GoOrd F] (A : Arith F)
open Moment

theorem pushAdd_open {c c' : Core F} {x : F} {e : Option Err} (h : c.queue.disposed = false) (hr : pushAdd A c x = .val (c', e)) :
    e = none ∧ c'.queue.disposed = false := by
  unfold pushAdd at hr
  cases hd : c.decay with
  | none =>
    simp only [hd, add] at hr
    generalize addLoop A (A.ofInt (c.count + 1)) (A.sub x c.mean) (c.len - 1) c.sums = l at hr
    rcases l with s | _ | _ <;> cases hr
    exact ⟨rfl, h⟩
  | some d =>
    simp only [hd, addDecay] at hr
    generalize decayLoop A (if c.count + 1 = 1 then A.ofInt 1 else d) (A.sub x c.mean) (c.len - 1) c.sums = l at hr
    rcases l with s | _ | _ <;> cases hr
    exact ⟨rfl, h⟩

theorem evict_open {c : Core F} {r : Except Err (Core F)} (h : c.queue.disposed = false) (hr : evict A c = .val r) :
    ∃ c', r = .ok c' ∧ c'.queue.disposed = false := by
  unfold evict at hr
  split_ifs at hr
  · rcases e : c.queue.get with g | _ | _ <;> rw [e] at hr
    · obtain ⟨y, q, rfl, hq⟩ := Ring.get_open h e
      simp only [remove] at hr
      split_ifs at hr
      · generalize removeLoop A _ _ _ _ _ = l at hr
        rcases l with s | _ | _ <;> cases hr
        exact ⟨_, rfl, hq⟩
      · cases hr
        exact ⟨_, rfl, hq⟩
    · cases hr
    · cases hr
  · cases hr
    exact ⟨_, rfl, h⟩

theorem push_open {c c' : Core F} {x : F} {e : Option Err} (h : c.queue.disposed = false) (hr : push A c x = .val (c', e)) :
    e = none ∧ c'.queue.disposed = false := by
  unfold push at hr
  split_ifs at hr
  · rcases e1 : evict A c with r | _ | _ <;> rw [e1] at hr
    · obtain ⟨c1, rfl, h1⟩ := evict_open A h e1
      simp only at hr
      rcases e2 : c1.queue.put x with r | _ | _ <;> rw [e2] at hr
      · obtain ⟨q, rfl, hq⟩ := Ring.put_open h1 e2
        exact pushAdd_open A (c := { c1 with queue := q }) hq hr
      · cases hr
      · cases hr
    · cases hr
    · cases hr
  · exact pushAdd_open A h hr

theorem step_open (c : Core F) (o : MOp F) (c' : Core F) (e : Option Err) (h : c.queue.disposed = false) (hr : step A c o = .val (c', e)) :
    e = none ∧ c'.queue.disposed = false := by
  cases o with
  | push x => exact push_open A h hr
  | clear => cases hr; exact ⟨rfl, rfl⟩

end FP

namespace Quant.Quantile
variable {F : Type} {st : Statistic F}

theorem add_open {q q' : Quantile st} {x : F} {e : Option Err} (h : q.queue.disposed = false) (hr : push.add x q = .val (q', e)) :
    e = none ∧ q'.queue.disposed = false := by
  unfold push.add at hr
  generalize st.add q.statistic x = l at hr
  rcases l with s | _ | _ <;> cases hr
  exact ⟨rfl, h⟩

theorem put_open {q q' : Quantile st} {x : F} {e : Option Err} (h : q.queue.disposed = false) (hr : push.put x q = .val (q', e)) :
    e = none ∧ q'.queue.disposed = false := by
  unfold push.put at hr
  rcases e2 : q.queue.put x with r | _ | _ <;> rw [e2] at hr
  · obtain ⟨q1, rfl, hq⟩ := Ring.put_open h e2
    exact add_open (q := { q with queue := q1 }) hq hr
  · cases hr
  · cases hr

theorem step_open (q : Quantile st) (o : MOp F) (q' : Quantile st) (e : Option Err) (h : q.queue.disposed = false)
    (hr : q.step o = .val (q', e)) : e = none ∧ q'.queue.disposed = false := by
  cases o with
  | push x =>
    simp only [step, push] at hr
    split_ifs at hr
    · rcases e1 : q.queue.get with r | _ | _ <;> rw [e1] at hr
      · obtain ⟨y, q1, rfl, hq⟩ := Ring.get_open h e1
        simp only at hr
        rcases e3 : st.remove q.statistic y with s | _ | _ <;> rw [e3] at hr
        · exact put_open (q := { q with queue := q1, statistic := s }) hq hr
        · cases hr
        · cases hr
      · cases hr
      · cases hr
    · exact put_open h hr
    · exact add_open h hr
  | clear => cases hr; exact ⟨rfl, rfl⟩

end Quant.Quantile

namespace HeapMedian
variable {F : Type} [GoOrd F]

theorem enqueue_open {s s' : HM F} {i : Nat} {e : Option Err} (h : s.queue.disposed = false) (hr : enqueue s i = .val (s', e)) :
    e = none ∧ s'.queue.disposed = false := by
  unfold enqueue at hr
  split_ifs at hr
  · rcases e2 : s.queue.put i with r | _ | _ <;> rw [e2] at hr
    · obtain ⟨q1, rfl, hq⟩ := Ring.put_open h e2
      cases hr
      exact ⟨rfl, hq⟩
    · cases hr
    · cases hr
  · cases hr; exact ⟨rfl, h⟩

theorem step_open (s : HM F) (o : MOp F) (s' : HM F) (e : Option Err) (h : s.queue.disposed = false)
    (hr : step s o = .val (s', e)) : e = none ∧ s'.queue.disposed = false := by
  cases o with
  | push x =>
    simp only [step, push] at hr
    split_ifs at hr
    · rcases e1 : s.queue.get with r | _ | _ <;> rw [e1] at hr
      · obtain ⟨y, q1, rfl, hq⟩ := Ring.get_open h e1
        simp only [Go.bind_eq_val] at hr
        obtain ⟨a, h1, b, h2, h3⟩ := hr
        have s1 := replace_sat { s with queue := q1 } y x
        have s2 := rebalance_sat a y
        rw [h1] at s1; rw [h2] at s2
        exact enqueue_open (by rw [s2.1, s1.1]; exact hq) h3
      · cases hr
      · cases hr
    · simp only [Go.bind_eq_val] at hr
      obtain ⟨a, h1, b, h2, h3⟩ := hr
      have s1 := insert_sat s x
      have s2 := rebalance_sat a.1 a.2
      rw [h1] at s1; rw [h2] at s2
      exact enqueue_open (by rw [s2.1, s1.1]; exact h) h3
  | clear => cases hr; exact ⟨rfl, rfl⟩

end HeapMedian

namespace MinMax
variable {F : Type} [GoOrd F] (O : Ext F)

theorem Max.evict_open {s : Max.St F} {r : Except Err (Max.St F)} (h : s.queue.disposed = false) (hr : Max.evict s = .val r) :
    ∃ s', r = .ok s' ∧ s'.queue.disposed = false := by
  unfold Max.evict at hr
  split_ifs at hr
  · rcases e : s.queue.get with g | _ | _ <;> rw [e] at hr
    · obtain ⟨y, q, rfl, hq⟩ := Ring.get_open h e
      rcases hd : s.deque with _ | ⟨f, d⟩ <;> simp only [hd] at hr
      · cases hr
      · split_ifs at hr <;> cases hr <;> exact ⟨_, rfl, hq⟩
    · cases hr
    · cases hr
  · cases hr
    exact ⟨_, rfl, h⟩

theorem Max.step_open (s : Max.St F) (o : MOp F) (s' : Max.St F) (e : Option Err) (h : s.queue.disposed = false)
    (hr : Max.step O s o = .val (s', e)) : e = none ∧ s'.queue.disposed = false := by
  cases o with
  | push x =>
    simp only [Max.step, Max.push] at hr
    split_ifs at hr
    · rcases e1 : Max.evict s with r | _ | _ <;> rw [e1] at hr
      · obtain ⟨s1, rfl, h1⟩ := Max.evict_open h e1
        simp only at hr
        rcases e2 : s1.queue.put x with r | _ | _ <;> rw [e2] at hr
        · obtain ⟨q, rfl, hq⟩ := Ring.put_open h1 e2
          cases hr
          exact ⟨rfl, hq⟩
        · cases hr
        · cases hr
      · cases hr
      · cases hr
    · cases hr; exact ⟨rfl, h⟩
  | clear => cases hr; exact ⟨rfl, rfl⟩

theorem Min.evict_open {s : Min.St F} {r : Except Err (Min.St F)} (h : s.queue.disposed = false) (hr : Min.evict s = .val r) :
    ∃ s', r = .ok s' ∧ s'.queue.disposed = false := by
  unfold Min.evict at hr
  split_ifs at hr
  · rcases e : s.queue.get with g | _ | _ <;> rw [e] at hr
    · obtain ⟨y, q, rfl, hq⟩ := Ring.get_open h e
      rcases hd : s.deque with _ | ⟨f, d⟩ <;> simp only [hd] at hr
      · cases hr
      · split_ifs at hr <;> cases hr <;> exact ⟨_, rfl, hq⟩
    · cases hr
    · cases hr
  · cases hr
    exact ⟨_, rfl, h⟩

theorem Min.step_open (s : Min.St F) (o : MOp F) (s' : Min.St F) (e : Option Err) (h : s.queue.disposed = false)
    (hr : Min.step O s o = .val (s', e)) : e = none ∧ s'.queue.disposed = false := by
  cases o with
  | push x =>
    simp only [Min.step, Min.push] at hr
    split_ifs at hr
    · rcases e1 : Min.evict s with r | _ | _ <;> rw [e1] at hr
      · obtain ⟨s1, rfl, h1⟩ := Min.evict_open h e1
        simp only at hr
        rcases e2 : s1.queue.put x with r | _ | _ <;> rw [e2] at hr
        · obtain ⟨q, rfl, hq⟩ := Ring.put_open h1 e2
          cases hr
          exact ⟨rfl, hq⟩
        · cases hr
        · cases hr
      · cases hr
      · cases hr
    · cases hr; exact ⟨rfl, h⟩
  | clear => cases hr; exact ⟨rfl, rfl⟩

end MinMax
end Verif
