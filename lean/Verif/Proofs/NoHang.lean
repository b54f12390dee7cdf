import Verif.Proofs.LockedMetrics
import Verif.Proofs.Moment
import Verif.Proofs.QuantileWeak

/-! # No method blocks on its queue or loops for ever -/

set_option linter.unusedSectionVars false

namespace Verif
open Verif.Spec

/-- The result, if there is one, satisfies `P`; and the computation does not block. -/
def Go.Sat {α : Type} (P : α → Prop) : Go α → Prop
  | .val a => P a
  | .panic => True
  | .hang => False

namespace Go
variable {α β : Type}

theorem Sat.mono {P Q : α → Prop} {x : Go α} (h : x.Sat P) (hpq : ∀ a, P a → Q a) : x.Sat Q := by
  cases x with
  | val a => exact hpq a h
  | panic => trivial
  | hang => exact h

theorem Sat.bind {P : α → Prop} {Q : β → Prop} {x : Go α} {f : α → Go β} (h : x.Sat P) (hf : ∀ a, P a → (f a).Sat Q) : (x >>= f).Sat Q := by
  cases x with
  | val a => exact hf a h
  | panic => trivial
  | hang => exact h

theorem Sat.ne {P : α → Prop} {x : Go α} (h : x.Sat P) : x ≠ .hang := by rintro rfl; exact h

theorem sat_of_ne {x : Go α} (h : x ≠ .hang) : x.Sat fun _ => True := by
  cases x with
  | val a => trivial
  | panic => trivial
  | hang => exact absurd rfl h

theorem Sat.of_val {P : α → Prop} {x : Go α} {a : α} (h : x.Sat P) (e : x = .val a) : P a := by subst e; exact h

end Go

/-! ## The queue -/

/-- The queue of a metric with window `w`: not disposed, not longer than the window, with room for it. -/
def RingOK {α : Type} (w : Int) (q : Ring α) : Prop := w ≠ 0 → q.disposed = false ∧ (q.items.length : Int) ≤ w ∧ w ≤ q.cap

theorem RingOK.new {α : Type} {w : Int} (h : 0 ≤ w) : RingOK w (Ring.new w.toNat : Ring α) := by
  intro _
  refine ⟨rfl, by simpa [Ring.new] using h, ?_⟩
  have := Ring.le_roundUp w.toNat
  show w ≤ (Ring.roundUp w.toNat : Nat)
  omega

theorem RingOK.get {α : Type} {w : Int} {q : Ring α} (h : RingOK w q) (hw : w ≠ 0) (hl : (q.len : Int) = w) :
    ∃ x xs, q.items = x :: xs ∧ q.get = .val (.ok (x, { q with items := xs })) ∧ RingOK w { q with items := xs } ∧
      ((xs.length : Int) < w) := by
  obtain ⟨h1, h2, h3⟩ := h hw
  unfold Ring.len at hl
  cases e : q.items with
  | nil => rw [e] at hl; exact absurd hl.symm (by simpa using hw)
  | cons x xs =>
    rw [e] at hl h2
    simp only [List.length_cons] at hl h2
    exact ⟨x, xs, rfl, Ring.get_ok h1 e, fun _ => ⟨h1, by simp only; omega, h3⟩, by omega⟩

theorem RingOK.put {α : Type} {w : Int} {q : Ring α} (h : RingOK w q) (hw : w ≠ 0) (hl : (q.items.length : Int) < w) (x : α) :
    q.put x = .val (.ok { q with items := q.items ++ [x] }) ∧ RingOK w { q with items := q.items ++ [x] } := by
  obtain ⟨h1, h2, h3⟩ := h hw
  refine ⟨Ring.put_ok h1 (by omega) x, fun _ => ⟨h1, ?_, h3⟩⟩
  simp only [List.length_append, List.length_singleton, Nat.cast_add, Nat.cast_one]
  omega

/-! ## moment -/

namespace Moment
variable {K : Type} [Field K]

theorem sumLoop_sat {term : Nat → Go K} (h : ∀ i, term i ≠ .hang) (n i : Nat) (acc : K) : (sumLoop term n i acc).Sat fun _ => True := by
  induction n generalizing i acc with
  | zero => trivial
  | succ n ih =>
    simp only [sumLoop]
    rcases e : term i with t | _ | _
    · exact ih _ _
    · trivial
    · exact absurd e (h i)

theorem entry_term {f : K → K} (k i : Nat) : (do let c ← (coef k i : Go K); pure (f c)) ≠ .hang :=
  ((Go.sat_of_ne (coef_ne_hang k i)).bind (Q := fun _ => True) (f := fun c => pure (f c)) fun _ _ => trivial).ne

theorem addLoop_sat (count delta : K) (n : Nat) (s : Nat → K) : (addLoop count delta n s).Sat fun _ => True := by
  induction n generalizing s with
  | zero => trivial
  | succ n ih =>
    cases n with
    | zero => trivial
    | succ n =>
      simp only [addLoop]
      have h : (addEntry count delta s (n + 2)).Sat fun _ => True := sumLoop_sat (fun i => entry_term (n + 2) i) _ _ _
      rcases e : addEntry count delta s (n + 2) with v | _ | _
      · exact ih _
      · trivial
      · rw [e] at h; exact h

theorem decayLoop_sat (d delta : K) (n : Nat) (s : Nat → K) : (decayLoop d delta n s).Sat fun _ => True := by
  induction n generalizing s with
  | zero => trivial
  | succ n ih =>
    cases n with
    | zero => trivial
    | succ n =>
      simp only [decayLoop]
      have h : (decayEntry d delta s (n + 2)).Sat fun _ => True := sumLoop_sat (fun i => entry_term (n + 2) i) _ _ _
      rcases e : decayEntry d delta s (n + 2) with v | _ | _
      · exact ih _
      · trivial
      · rw [e] at h; exact h

theorem removeLoop_sat (count delta : K) (n k : Nat) (s : Nat → K) : (removeLoop count delta n k s).Sat fun _ => True := by
  induction n generalizing k s with
  | zero => trivial
  | succ n ih =>
    simp only [removeLoop]
    have h : (removeEntry count delta s k).Sat fun _ => True := sumLoop_sat (fun i => entry_term k i) _ _ _
    rcases e : removeEntry count delta s k with v | _ | _
    · exact ih _ _
    · trivial
    · rw [e] at h; exact h

theorem pushAdd_sat (c : Core K) (x : K) : (pushAdd c x).Sat fun r => r.1.queue = c.queue ∧ r.1.window = c.window := by
  unfold pushAdd
  cases c.decay with
  | none =>
    simp only [add]
    have h := addLoop_sat (((c.count + 1 : Int) : K)) (x - c.mean) (c.len - 1) c.sums
    rcases e : addLoop (((c.count + 1 : Int) : K)) (x - c.mean) (c.len - 1) c.sums with v | _ | _
    · exact ⟨rfl, rfl⟩
    · trivial
    · rw [e] at h; exact h
  | some d =>
    simp only [addDecay]
    have h := decayLoop_sat (if c.count + 1 = 1 then 1 else d) (x - c.mean) (c.len - 1) c.sums
    rcases e : decayLoop (if c.count + 1 = 1 then 1 else d) (x - c.mean) (c.len - 1) c.sums with v | _ | _
    · exact ⟨rfl, rfl⟩
    · trivial
    · rw [e] at h; exact h

theorem remove_sat (c : Core K) (x : K) : (remove c x).Sat fun r => r.queue = c.queue ∧ r.window = c.window := by
  unfold remove
  simp only []
  by_cases hc : c.count - 1 > 0
  · rw [if_pos hc]
    have h := removeLoop_sat (((c.count - 1 : Int) : K)) (x - (c.mean - (x - c.mean) / ((c.count - 1 : Int) : K))) (c.len - 2) 2 c.sums
    rcases e : removeLoop (((c.count - 1 : Int) : K)) (x - (c.mean - (x - c.mean) / ((c.count - 1 : Int) : K))) (c.len - 2) 2 c.sums with v | _ | _
    · exact ⟨rfl, rfl⟩
    · trivial
    · rw [e] at h; exact h
  · rw [if_neg hc]; exact ⟨rfl, rfl⟩

/-- What is needed for the queue not to block. -/
def QOK (c : Core K) : Prop := 0 ≤ c.window ∧ RingOK c.window c.queue

theorem push_sat {c : Core K} (h : QOK c) (x : K) : (push c x).Sat fun r => QOK r.1 := by
  unfold push
  by_cases hw : c.window ≠ 0
  · rw [if_pos hw]
    have hput : ∀ c' : Core K, c'.window = c.window → RingOK c.window c'.queue → (c'.queue.items.length : Int) < c.window →
        Go.Sat (fun r : Core K × Option Err => QOK r.1) (match c'.queue.put x with
      | .panic => .panic
      | .hang => .hang
      | .val (.error e) => .val (c', some e)
      | .val (.ok q) => pushAdd { c' with queue := q } x) := by
      intro c' h1 h2 h3
      obtain ⟨e, h4⟩ := h2.put hw h3 x
      rw [e]
      refine (pushAdd_sat _ x).mono fun r hr => ⟨?_, ?_⟩
      · rw [hr.2, h1]; exact h.1
      · rw [hr.2, hr.1, h1]; exact h4
    unfold evict
    by_cases hl : (c.queue.len : Int) = c.window
    · rw [if_pos hl]
      obtain ⟨y, ys, hi, hg, h2, h3⟩ := h.2.get hw hl
      rw [hg]
      have := remove_sat { c with queue := { c.queue with items := ys } } y
      simp only []
      rcases e : remove { c with queue := { c.queue with items := ys } } y with c' | _ | _
      · rw [e] at this
        refine hput c' this.2 ?_ ?_
        · rw [this.1]; exact h2
        · rw [this.1]; exact h3
      · trivial
      · rw [e] at this; exact this
    · rw [if_neg hl]
      refine hput c rfl h.2 ?_
      have := (h.2 hw).2.1
      unfold Ring.len at hl
      omega
  · rw [if_neg hw]
    refine (pushAdd_sat c x).mono fun r hr => ⟨?_, ?_⟩
    · rw [hr.2]; exact h.1
    · rw [hr.1, hr.2]; exact h.2

end Moment

/-! ## joint -/

namespace Joint
variable {K : Type} [Field K]

theorem forEach_sat {σ α : Type} {body : α → σ → Go (σ × List Err)} (h : ∀ a s, (body a s).Sat fun _ => True) (l : List α) (s : σ) :
    (forEach body l s).Sat fun _ => True := by
  induction l generalizing s with
  | nil => trivial
  | cons a l ih =>
    simp only [forEach]
    have h1 := h a s
    rcases e : body a s with ⟨s', er⟩ | _ | _
    · have h2 := ih s'
      simp only []
      rcases e' : forEach body l s' with r | _ | _
      · trivial
      · trivial
      · rw [e'] at h2; exact h2
    · trivial
    · rw [e] at h1; exact h1

theorem iter_sat {σ : Type} {cb : Tuple → σ → Go (σ × List Err)} (h : ∀ a s, (cb a s).Sat fun _ => True) (t : Tuple) (reverse : Bool) (s : σ) :
    (iter t reverse cb s).Sat fun _ => True := by
  unfold iter
  generalize t.reverse = l
  induction l generalizing cb s with
  | nil => exact h _ _
  | cons n l ih => exact forEach_sat (fun i s => ih (fun a s => h _ _) s) _ _

theorem multinomLoop_sat (r : Int) (m n : Tuple) : (multinomLoop r m n).Sat fun _ => True := by
  induction m generalizing r n with
  | nil => cases n <;> trivial
  | cons a m ih =>
    cases n with
    | nil => trivial
    | cons b n =>
      simp only [multinomLoop]
      rcases e : MathUtil.binom a b with c | _ | _
      · exact ih _ _
      · trivial
      · exact absurd e (Moment.binom_ne_hang a b)

theorem multinom_sat (a b : Tuple) : (multinom a b).Sat fun _ => True := by
  unfold multinom
  by_cases h : a.length ≠ b.length
  · rw [if_pos h]; trivial
  · rw [if_neg h]
    have h := multinomLoop_sat 1 a b
    rcases e : multinomLoop 1 a b with c | _ | _
    · trivial
    · trivial
    · rw [e] at h; exact h

theorem visit_sat (r : Rule K) (delta : List K) (sums : Map K) (a b : Tuple) (ns : Map K) : (visit r delta sums a b ns).Sat fun _ => True := by
  unfold visit
  cases pow delta b with
  | error e => trivial
  | ok dp =>
    simp only []
    by_cases h1 : abs b = 0
    · rw [if_pos h1]; trivial
    rw [if_neg h1]
    by_cases h2 : eq b a = true
    · rw [if_pos h2]; trivial
    rw [if_neg h2]
    unfold visitPart
    have h := multinom_sat a b
    rcases e : multinom a b with c | _ | _
    · cases c with
      | error e => trivial
      | ok m => simp only []; cases sub a b <;> trivial
    · trivial
    · rw [e] at h; exact h

theorem updateTuple_sat (r : Rule K) (rev : Bool) (delta : List K) (sums : Map K) (t : Tuple) (ns : Map K) :
    (updateTuple r rev delta sums t ns).Sat fun _ => True :=
  iter_sat (fun a s => iter_sat (fun b s => visit_sat r delta sums a b s) a false _) t rev ns

theorem updateAll_sat (r : Rule K) (delta : List K) (sums : Map K) (ts : List Tuple) (ns : Map K) :
    (updateAll r delta sums ts ns).Sat fun _ => True := by
  induction ts generalizing ns with
  | nil => trivial
  | cons t ts ih =>
    simp only [updateAll]
    have h := updateTuple_sat r true delta sums t ns
    rcases e : updateTuple r true delta sums t ns with ⟨ns', es⟩ | _ | _
    · cases es with
      | nil => exact ih _
      | cons => trivial
    · trivial
    · rw [e] at h; exact h

theorem removeAll_sat (r : Rule K) (delta : List K) (ts : List Tuple) (sums ns : Map K) :
    (removeAll r delta ts sums ns).Sat fun _ => True := by
  induction ts generalizing ns sums with
  | nil => trivial
  | cons t ts ih =>
    simp only [removeAll]
    have h := updateTuple_sat r false delta sums t ns
    rcases e : updateTuple r false delta sums t ns with ⟨ns', es⟩ | _ | _
    · cases es with
      | nil => exact ih _ _
      | cons => trivial
    · trivial
    · rw [e] at h; exact h

theorem pushAdd_sat (c : Core K) (xs : List K) : (pushAdd c xs).Sat fun r => r.1.queue = c.queue ∧ r.1.window = c.window := by
  unfold pushAdd
  cases c.decay with
  | none =>
    simp only [add]
    have h := updateAll_sat (addRule (((c.count + 1 : Int) : K))) (List.zipWith (fun x m => x - m) xs c.means) c.sums c.tuples c.newSums
    rcases e : updateAll (addRule (((c.count + 1 : Int) : K))) (List.zipWith (fun x m => x - m) xs c.means) c.sums c.tuples c.newSums with ⟨ns, er⟩ | _ | _
    · cases er <;> exact ⟨rfl, rfl⟩
    · trivial
    · rw [e] at h; exact h
  | some d =>
    simp only [addDecay]
    have h := updateAll_sat (decayRule (if c.count + 1 = 1 then 1 else d)) (List.zipWith (fun x m => x - m) xs c.means) c.sums c.tuples c.newSums
    rcases e : updateAll (decayRule (if c.count + 1 = 1 then 1 else d)) (List.zipWith (fun x m => x - m) xs c.means) c.sums c.tuples c.newSums with ⟨ns, er⟩ | _ | _
    · cases er <;> exact ⟨rfl, rfl⟩
    · trivial
    · rw [e] at h; exact h

theorem remove_sat (c : Core K) (xs : List K) : (remove c xs).Sat fun r => r.1.queue = c.queue ∧ r.1.window = c.window := by
  unfold remove
  simp only []
  split_ifs
  · generalize List.zipWith (fun x m => m - (x - m) / ((c.count - 1 : Int) : K)) xs c.means = means
    generalize List.zipWith (fun x m => x - m) xs means = delta
    have h := removeAll_sat (removeRule (((c.count - 1 : Int) : K))) delta c.tuples c.sums c.newSums
    rcases e : removeAll (removeRule (((c.count - 1 : Int) : K))) delta c.tuples c.sums c.newSums with v | _ | _
    · exact ⟨rfl, rfl⟩
    · trivial
    · rw [e] at h; exact h
  · exact ⟨rfl, rfl⟩

/-- What is needed for the queue not to block. -/
def QOK (c : Core K) : Prop := 0 ≤ c.window ∧ RingOK c.window c.queue

theorem push_sat {c : Core K} (h : QOK c) (xs : List K) : (push c xs).Sat fun r => QOK r.1 := by
  unfold push
  by_cases hx : xs.length ≠ c.means.length
  · rw [if_pos hx]; exact h
  rw [if_neg hx]
  by_cases hw : c.window ≠ 0
  · rw [if_pos hw]
    have hput : ∀ c' : Core K, c'.window = c.window → RingOK c.window c'.queue → (c'.queue.items.length : Int) < c.window →
        (pushPut c' xs).Sat fun r => QOK r.1 := by
      intro c' h1 h2 h3
      obtain ⟨e, h4⟩ := h2.put hw h3 xs
      unfold pushPut
      rw [e]
      refine (pushAdd_sat _ xs).mono fun r hr => ⟨?_, ?_⟩
      · rw [hr.2, h1]; exact h.1
      · rw [hr.2, hr.1, h1]; exact h4
    unfold evict
    by_cases hl : (c.queue.len : Int) = c.window
    · rw [if_pos hl]
      obtain ⟨y, ys, hi, hg, h2, h3⟩ := h.2.get hw hl
      rw [hg]
      have := remove_sat { c with queue := { c.queue with items := ys } } y
      simp only []
      rcases e : remove { c with queue := { c.queue with items := ys } } y with ⟨c', er⟩ | _ | _
      · rw [e] at this
        cases er with
        | none =>
          refine hput c' this.2 ?_ ?_
          · rw [this.1]; exact h2
          · rw [this.1]; exact h3
        | some er =>
          refine ⟨?_, ?_⟩
          · rw [this.2]; exact h.1
          · rw [this.1, this.2]; exact h2
      · trivial
      · rw [e] at this; exact this
    · rw [if_neg hl]
      refine hput c rfl h.2 ?_
      have := (h.2 hw).2.1
      unfold Ring.len at hl
      omega
  · rw [if_neg hw]
    refine (pushAdd_sat c xs).mono fun r hr => ⟨?_, ?_⟩
    · rw [hr.2]; exact h.1
    · rw [hr.1, hr.2]; exact h.2

end Joint
end Verif
