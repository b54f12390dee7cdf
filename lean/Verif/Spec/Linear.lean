import Verif.Model.Locks

/-! # Specification: linearizability

A history of calls and returns is explained by a sequential execution `lin` if `lin` has every call that returned, with its result, and
perhaps some calls still in progress; no call twice; the results are those of the sequential methods; and a call that returned before
another one was made does not come after it. -/

namespace Verif.Spec
open Verif Verif.Locks

variable {T M σ β : Type}

/-- Calls one after the other: number, method, result. -/
inductive SeqRun (sem : M → σ → Go (σ × β)) : σ → List (Nat × M × β) → σ → Prop where
  | nil (s : σ) : SeqRun sem s [] s
  | snoc {s s' s'' : σ} {l : List (Nat × M × β)} {id : Nat} {m : M} {b : β} : SeqRun sem s l s' → sem m s' = .val (s'', b) →
      SeqRun sem s (l ++ [(id, m, b)]) s''

/-- Call `a` returned before call `b` was made. -/
def Before (hist : List (Event T M β)) (a b : Nat) : Prop :=
  ∃ h1 h2 t m r, hist = h1 ++ .inv b t m :: h2 ∧ Event.res a r ∈ h1

/-- See above. `s` is the state after the sequential execution. -/
structure Explains (sem : M → σ → Go (σ × β)) (s0 : σ) (hist : List (Event T M β)) (lin : List (Nat × M × β)) (s : σ) : Prop where
  runs : SeqRun sem s0 lin s
  once : (lin.map (·.1)).Nodup
  made : ∀ id m b, (id, m, b) ∈ lin → ∃ t, Event.inv id t m ∈ hist
  returned : ∀ id b, Event.res id b ∈ hist → ∃ m, (id, m, b) ∈ lin
  order : lin.Pairwise (fun x y => ¬ Before hist y.1 x.1)

/-- The same goroutine made call `a` before call `b`. -/
def ProgramOrder (hist : List (Event T M β)) (a b : Nat) : Prop :=
  ∃ h1 h2 t m m', hist = h1 ++ .inv b t m :: h2 ∧ Event.inv a t m' ∈ h1

/-- Call `id` of method `m` by `t` has been made and has not returned. -/
def InProgress (hist : List (Event T M β)) (id : Nat) (t : T) (m : M) : Prop := Event.inv id t m ∈ hist ∧ ∀ b, Event.res id b ∉ hist

/-- The history is that of a sequential execution of the same calls, in an order compatible with that of every goroutine, and with that of
calls that do not overlap. -/
def Serializable (sem : M → σ → Go (σ × β)) (s0 : σ) (hist : List (Event T M β)) : Prop :=
  ∃ lin s, Explains sem s0 hist lin s ∧ lin.Pairwise (fun x y => ¬ ProgramOrder hist y.1 x.1)

/-- The program ended in a panic, and some call in progress panics in the sequential execution too. -/
def PanicExplained (sem : M → σ → Go (σ × β)) (s0 : σ) (hist : List (Event T M β)) : Prop :=
  ∃ lin s, Explains sem s0 hist lin s ∧ ∃ id t m, InProgress hist id t m ∧ sem m s = .panic

/-- Two goroutines can act on the memory at the same time, and one of them can write. -/
def Race (s : St T M σ β) : Prop :=
  ∃ t u id id' f f' k k' held held' w w', t ≠ u ∧ s.thr t = .run id (.act f k) held w ∧ s.thr u = .run id' (.act f' k') held' w' ∧
    ∃ x x', f x = .val x' ∧ x' ≠ x

/-- Concurrent use is like sequential use: every execution is serializable, a panic is one of the sequential execution, and no goroutine
reads or writes the memory while another one can write it. -/
def Atomic (T : Type) [DecidableEq T] (obj : M → Prog σ β) (sem : M → σ → Go (σ × β)) (s0 : σ) : Prop :=
  ∀ s : St T M σ β, Steps obj (St.init s0) s →
    Serializable sem s0 s.hist ∧ (s.crashed = true → PanicExplained sem s0 s.hist) ∧ ¬ Race s

/-- Whatever the goroutines did so far, the calls in progress can go on, and all end if no new ones are made (or the program ends in a
panic): there is no deadlock and no endless execution of calls. -/
def CallsEnd (T : Type) [DecidableEq T] (obj : M → Prog σ β) (s0 : σ) : Prop :=
  ∀ s : St T M σ β, Steps obj (St.init s0) s →
    ¬ Deadlock s ∧ ¬ ∃ f : Nat → St T M σ β, f 0 = s ∧ ∀ n, Inner (f n) (f (n + 1))

/-- Goroutine `t` will never do anything again, whatever happens. -/
def StuckForever [DecidableEq T] (obj : M → Prog σ β) (t : T) (s : St T M σ β) : Prop :=
  s.thr t ≠ .idle ∧ ∀ s', Steps obj s s' → s'.thr t = s.thr t

end Verif.Spec
