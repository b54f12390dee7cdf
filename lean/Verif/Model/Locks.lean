import Verif.Base
import Mathlib.Logic.Function.Basic

/-! # Goroutines, `sync.RWMutex` and the critical sections of the metrics

Every metric has one mutex. A method is a program of actions on the memory and on the mutex; goroutines run such programs, one call after
the other, and the scheduler picks any goroutine that can go on.

`sync.RWMutex` (Go standard library, not in /repo) is transcribed from its documentation and source: `Lock` first announces the writer
(one at a time), from then on `RLock` waits; the writer goes on when all readers have left; `Unlock` lets all waiting readers in, before any
other writer. `sync.Mutex` is the case without readers (there the announcement is an extra step without effect). Memory is sequentially
consistent: this is what the Go memory model promises for programs without data races, and their absence is proved. -/

namespace Verif.Locks
open Verif

/-! ## Programs -/

/-- What a goroutine has left to do in a call. `act f k`: one atomic action; `f` is its effect on the memory (it may panic or block), `k`
goes on with the memory found before. -/
inductive Prog (σ β : Type) where
  | ret (b : β)
  | act (f : σ → Go σ) (k : σ → Prog σ β)
  | rlock (p : Prog σ β)
  | runlock (p : Prog σ β)
  | lock (p : Prog σ β)
  | unlock (p : Prog σ β)

namespace Prog
variable {σ β γ : Type}

/-- Sequencing. -/
def bind : Prog σ β → (β → Prog σ γ) → Prog σ γ
  | ret b, g => g b
  | act f k, g => act f (fun s => (k s).bind g)
  | rlock p, g => rlock (p.bind g)
  | runlock p, g => runlock (p.bind g)
  | lock p, g => lock (p.bind g)
  | unlock p, g => unlock (p.bind g)

/-- A program run alone from beginning to end (the mutex plays no role). -/
def run : Prog σ β → σ → Go (σ × β)
  | ret b, s => .val (s, b)
  | act f k, s =>
    match f s with
    | .val s' => (k s).run s'
    | .panic => .panic
    | .hang => .hang
  | rlock p, s => p.run s
  | runlock p, s => p.run s
  | lock p, s => p.run s
  | unlock p, s => p.run s

/-- A program without lock operations: the body of a critical section. -/
inductive Plain : Prog σ β → Prop where
  | ret (b : β) : Plain (ret b)
  | act {f : σ → Go σ} {k : σ → Prog σ β} : (∀ s, Plain (k s)) → Plain (act f k)

/-- … that does not write. -/
inductive ReadOnly : Prog σ β → Prop where
  | ret (b : β) : ReadOnly (ret b)
  | act {f : σ → Go σ} {k : σ → Prog σ β} : (∀ s s', f s = .val s' → s' = s) → (∀ s, ReadOnly (k s)) → ReadOnly (act f k)

/-- `mux.Lock(); defer mux.Unlock(); p`. -/
def locked (p : Prog σ β) : Prog σ β := lock (p.bind fun b => unlock (ret b))

/-- `mux.RLock(); defer mux.RUnlock(); p`. -/
def rlocked (p : Prog σ β) : Prog σ β := rlock (p.bind fun b => runlock (ret b))

/-- A method as a single action. -/
def once (g : σ → Go (σ × β)) (k : σ → β) : Prog σ β :=
  act (fun s => match g s with | .val (s', _) => .val s' | .panic => .panic | .hang => .hang) (fun s => ret (k s))

/-- A reading method as a single action. -/
def look (g : σ → β) : Prog σ β := act .val (fun s => ret (g s))

end Prog

/-! ## Goroutines -/

/-- Whether a goroutine at an `RLock` sleeps, and whether it has been let in. -/
inductive Wait where
  | no
  | queued
  | granted
  deriving DecidableEq

/-- A goroutine: between calls, or in call number `id` with `held` read locks. -/
inductive Thr (σ β : Type) where
  | idle
  | run (id : Nat) (p : Prog σ β) (held : Nat) (wait : Wait)

/-- What a client sees: calls and returns. -/
inductive Event (T M β : Type) where
  | inv (id : Nat) (t : T) (m : M)
  | res (id : Nat) (b : β)

/-- The state: memory of the metric, its mutex (`pending`: the announced writer; `active`: it has the lock), the goroutines, the history,
the number of calls so far. -/
structure St (T M σ β : Type) where
  mem : σ
  pending : Option T
  active : Bool
  thr : T → Thr σ β
  hist : List (Event T M β)
  next : Nat
  crashed : Bool

variable {T M σ β : Type} [DecidableEq T]

/-- Before the first call. -/
def St.init (s : σ) : St T M σ β := ⟨s, none, false, fun _ => .idle, [], 0, false⟩

/-- The goroutine has a read lock, or has been given one. -/
def Thr.reading : Thr σ β → Prop
  | .idle => False
  | .run _ _ held wait => 0 < held ∨ wait = .granted

/-- `Unlock` lets the sleeping readers in. -/
def Thr.wake : Thr σ β → Thr σ β
  | .run id p held .queued => .run id p held .granted
  | t => t

/-- Change one goroutine. -/
def St.set (s : St T M σ β) (t : T) (x : Thr σ β) : St T M σ β := { s with thr := Function.update s.thr t x }

/-- An idle goroutine calls a method. -/
inductive Invoke (obj : M → Prog σ β) : St T M σ β → St T M σ β → Prop where
  | mk (s : St T M σ β) (t : T) (m : M) : s.crashed = false → s.thr t = .idle →
      Invoke obj s { s.set t (.run s.next (obj m) 0 .no) with hist := s.hist ++ [.inv s.next t m], next := s.next + 1 }

/-- A goroutine that is in a call goes on. -/
inductive Inner : St T M σ β → St T M σ β → Prop where
  /-- the call returns -/
  | ret (s : St T M σ β) (t : T) (id : Nat) (b : β) (held : Nat) (w : Wait) : s.crashed = false →
      s.thr t = .run id (.ret b) held w → Inner s { s.set t .idle with hist := s.hist ++ [.res id b] }
  /-- an action on the memory -/
  | act (s : St T M σ β) (t : T) (id : Nat) (f : σ → Go σ) (k : σ → Prog σ β) (held : Nat) (w : Wait) (m : σ) : s.crashed = false →
      s.thr t = .run id (.act f k) held w → f s.mem = .val m → Inner s { s.set t (.run id (k s.mem) held w) with mem := m }
  /-- it panics: the program ends -/
  | crash (s : St T M σ β) (t : T) (id : Nat) (f : σ → Go σ) (k : σ → Prog σ β) (held : Nat) (w : Wait) : s.crashed = false →
      s.thr t = .run id (.act f k) held w → f s.mem = .panic → Inner s { s with crashed := true }
  /-- `RLock` without announced writer -/
  | rlock (s : St T M σ β) (t : T) (id : Nat) (p : Prog σ β) (held : Nat) : s.crashed = false →
      s.thr t = .run id (.rlock p) held .no → s.pending = none → Inner s (s.set t (.run id p (held + 1) .no))
  /-- `RLock` with announced writer: go to sleep -/
  | sleep (s : St T M σ β) (t : T) (id : Nat) (p : Prog σ β) (held : Nat) : s.crashed = false →
      s.thr t = .run id (.rlock p) held .no → s.pending ≠ none → Inner s (s.set t (.run id (.rlock p) held .queued))
  /-- … until let in -/
  | resume (s : St T M σ β) (t : T) (id : Nat) (p : Prog σ β) (held : Nat) : s.crashed = false →
      s.thr t = .run id (.rlock p) held .granted → Inner s (s.set t (.run id p (held + 1) .no))
  /-- `RUnlock` -/
  | runlock (s : St T M σ β) (t : T) (id : Nat) (p : Prog σ β) (held : Nat) : s.crashed = false →
      s.thr t = .run id (.runlock p) (held + 1) .no → Inner s (s.set t (.run id p held .no))
  /-- `RUnlock` without `RLock`: fatal error -/
  | badRunlock (s : St T M σ β) (t : T) (id : Nat) (p : Prog σ β) : s.crashed = false →
      s.thr t = .run id (.runlock p) 0 .no → Inner s { s with crashed := true }
  /-- `Lock`: announce the writer -/
  | announce (s : St T M σ β) (t : T) (id : Nat) (p : Prog σ β) (held : Nat) : s.crashed = false →
      s.thr t = .run id (.lock p) held .no → s.pending = none → Inner s { s with pending := some t }
  /-- … and wait until the readers have left -/
  | acquire (s : St T M σ β) (t : T) (id : Nat) (p : Prog σ β) (held : Nat) : s.crashed = false →
      s.thr t = .run id (.lock p) held .no → s.pending = some t → s.active = false → (∀ u, ¬ (s.thr u).reading) →
      Inner s { s.set t (.run id p held .no) with active := true }
  /-- `Unlock` -/
  | unlock (s : St T M σ β) (t : T) (id : Nat) (p : Prog σ β) (held : Nat) : s.crashed = false →
      s.thr t = .run id (.unlock p) held .no → s.active = true →
      Inner s { s with pending := none, active := false, thr := fun u => if u = t then .run id p held .no else (s.thr u).wake }
  /-- `Unlock` without `Lock`: fatal error -/
  | badUnlock (s : St T M σ β) (t : T) (id : Nat) (p : Prog σ β) (held : Nat) : s.crashed = false →
      s.thr t = .run id (.unlock p) held .no → s.active = false → Inner s { s with crashed := true }

/-- Any transition. -/
def Step (obj : M → Prog σ β) (s s' : St T M σ β) : Prop := Invoke obj s s' ∨ Inner s s'

/-- An execution. -/
inductive Steps (obj : M → Prog σ β) : St T M σ β → St T M σ β → Prop where
  | refl (s : St T M σ β) : Steps obj s s
  | step {s s' s'' : St T M σ β} : Steps obj s s' → Step obj s' s'' → Steps obj s s''

/-- Calls are in progress, the program has not crashed, and none of them can go on. -/
def Deadlock (s : St T M σ β) : Prop :=
  s.crashed = false ∧ (∃ t, s.thr t ≠ .idle) ∧ ∀ s', ¬ Inner s s'

end Verif.Locks
