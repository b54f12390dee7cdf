import Verif.Model.Locks
import Mathlib.Data.Fintype.Basic

/-! # Running a given schedule

For examples: an execution given by the list of goroutines that move. -/

namespace Verif.Locks
open Verif Prog

deriving instance DecidableEq for Event

variable {T M σ β : Type} [DecidableEq T] [Fintype T]

/-- One move: a goroutine makes a call or goes on. -/
inductive Move (T M : Type) where
  | call (t : T) (m : M)
  | go (t : T)

instance (x : Thr σ β) : Decidable x.reading :=
  match x with
  | .idle => isFalse (fun h => h)
  | .run _ _ held wait => inferInstanceAs (Decidable (0 < held ∨ wait = .granted))

/-- The move, if it is possible. -/
def St.move (obj : M → Prog σ β) (s : St T M σ β) : Move T M → Option (St T M σ β)
  | .call t m =>
    if s.crashed then none
    else match s.thr t with
      | .idle => some { s.set t (.run s.next (obj m) 0 .no) with hist := s.hist ++ [.inv s.next t m], next := s.next + 1 }
      | _ => none
  | .go t =>
    if s.crashed then none
    else match s.thr t with
      | .idle => none
      | .run id (.ret b) _ _ => some { s.set t .idle with hist := s.hist ++ [.res id b] }
      | .run id (.act f k) held w =>
        match f s.mem with
        | .val m => some { s.set t (.run id (k s.mem) held w) with mem := m }
        | .panic => some { s with crashed := true }
        | .hang => none
      | .run id (.rlock p) held .no =>
        if s.pending = none then some (s.set t (.run id p (held + 1) .no)) else some (s.set t (.run id (.rlock p) held .queued))
      | .run id (.rlock p) held .granted => some (s.set t (.run id p (held + 1) .no))
      | .run _ (.rlock _) _ .queued => none
      | .run id (.runlock p) (held + 1) .no => some (s.set t (.run id p held .no))
      | .run _ (.runlock _) _ _ => none
      | .run id (.lock p) held .no =>
        if s.pending = none then some { s with pending := some t }
        else if s.pending = some t ∧ s.active = false ∧ ∀ u, ¬ (s.thr u).reading then
          some { s.set t (.run id p held .no) with active := true }
        else none
      | .run _ (.lock _) _ _ => none
      | .run id (.unlock p) held .no =>
        if s.active then
          some { s with pending := none, active := false, thr := fun u => if u = t then .run id p held .no else (s.thr u).wake }
        else none
      | .run _ (.unlock _) _ _ => none

theorem St.move_step {obj : M → Prog σ β} {s s' : St T M σ β} {c : Move T M} (h : s.move obj c = some s') : Step obj s s' := by
  cases c with
  | call t m =>
    simp only [St.move] at h
    cases hc : s.crashed with
    | true => rw [hc] at h; simp at h
    | false =>
      rw [hc] at h
      simp only [Bool.false_eq_true, if_false] at h
      cases e : s.thr t with
      | idle => rw [e] at h; cases h; exact .inl (.mk s t m hc e)
      | run => rw [e] at h; cases h
  | go t =>
    refine .inr ?_
    simp only [St.move] at h
    cases hc : s.crashed with
    | true => rw [hc] at h; simp at h
    | false =>
      rw [hc] at h
      simp only [Bool.false_eq_true, if_false] at h
      cases e : s.thr t with
      | idle => rw [e] at h; cases h
      | run id p held w =>
        rw [e] at h
        cases p with
        | ret b => cases h; exact .ret s t id b held w hc e
        | act f k =>
          simp only at h
          cases hf : f s.mem with
          | val m => rw [hf] at h; cases h; exact .act s t id f k held w m hc e hf
          | panic => rw [hf] at h; cases h; exact .crash s t id f k held w hc e hf
          | hang => rw [hf] at h; cases h
        | rlock p =>
          cases w with
          | no =>
            simp only at h
            by_cases hp : s.pending = none
            · rw [if_pos hp] at h; cases h; exact .rlock s t id p held hc e hp
            · rw [if_neg hp] at h; cases h; exact .sleep s t id p held hc e hp
          | queued => cases h
          | granted => cases h; exact .resume s t id p held hc e
        | runlock p =>
          cases held with
          | zero => cases w <;> cases h
          | succ held =>
            cases w with
            | no => cases h; exact .runlock s t id p held hc e
            | queued => cases h
            | granted => cases h
        | lock p =>
          cases w with
          | no =>
            simp only at h
            by_cases hp : s.pending = none
            · rw [if_pos hp] at h; cases h; have := Inner.announce s t id p held hc e hp; rw [hc] at this; exact this
            · rw [if_neg hp] at h
              by_cases hq : s.pending = some t ∧ s.active = false ∧ ∀ u, ¬ (s.thr u).reading
              · rw [if_pos hq] at h; cases h; exact .acquire s t id p held hc e hq.1 hq.2.1 hq.2.2
              · rw [if_neg hq] at h; cases h
          | queued => cases h
          | granted => cases h
        | unlock p =>
          cases w with
          | no =>
            simp only at h
            cases ha : s.active with
            | true => rw [ha] at h; cases h; have := Inner.unlock s t id p held hc e ha; rw [hc] at this; exact this
            | false => rw [ha] at h; cases h
          | queued => cases h
          | granted => cases h

/-- The schedule, if it is possible. -/
def St.exec (obj : M → Prog σ β) (s : St T M σ β) : List (Move T M) → Option (St T M σ β)
  | [] => some s
  | c :: l =>
    match s.move obj c with
    | some s' => s'.exec obj l
    | none => none

theorem St.exec_steps {obj : M → Prog σ β} {s s1 s' : St T M σ β} (h1 : Steps obj s s1) {l : List (Move T M)} (h : s1.exec obj l = some s') :
    Steps obj s s' := by
  induction l generalizing s1 with
  | nil => cases h; exact h1
  | cons c l ih =>
    simp only [St.exec] at h
    rcases e : s1.move obj c with _ | s2
    · rw [e] at h; cases h
    · rw [e] at h
      exact ih (.step h1 (St.move_step e)) h

/-- The history of a schedule is that of an execution. -/
theorem exists_exec {obj : M → Prog σ β} {s0 : σ} {l : List (Move T M)} {hist : List (Event T M β)}
    (h : ((St.init s0 : St T M σ β).exec obj l).map (·.hist) = some hist) :
    ∃ s : St T M σ β, Steps obj (St.init s0) s ∧ s.hist = hist := by
  rcases e : (St.init s0 : St T M σ β).exec obj l with _ | s
  · rw [e] at h; cases h
  · rw [e] at h; cases h
    exact ⟨s, St.exec_steps (.refl _) e, rfl⟩

end Verif.Locks
