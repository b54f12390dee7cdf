import Verif.Base
import Mathlib.Logic.Function.Basic

/-! # Model of `aggregate/simple_aggregate.go` and `aggregate/simple_joint_aggregate.go`

The two files are the same code for values of different types (one number; a list of numbers), so the type of the values is a parameter.
`Push`, `Values` and `Clear` all start one goroutine per metric and wait for them; the goroutine calls the metric and then, if it has
something to report, updates variables of the caller under a mutex. This is modelled as a transition system: the scheduler picks any enabled
transition.

Simplifications: a call of a method of a wrapped metric is one transition (the metrics do not share state, so calls on different metrics
commute; calls on one metric are atomic by its own mutex, see Model/Locks.lean). The calls of one aggregate are serialised by its mutex
`s.mux` (lines 30-31, 63-64, 101-102), so that only one call is in progress. The wrapping of errors with a message (lines 54, 93) is not
modelled, nor is the flattening of nested `*multierror.Error` values by `multierror.Append`. All metrics have the same type of states (take
a sum of the types). -/

namespace Verif.Aggregate
open Verif

variable {σ ω S : Type}

/-- Where a goroutine is. -/
inductive PC (ω S : Type) where
  /-- not started, or started and before the call of the metric -/
  | ready
  /-- simple_aggregate.go:41, 75: before `mux.Lock()` with something to report -/
  | waiting (w : ω)
  /-- has the lock -/
  | holding (w : ω)
  /-- has read the shared variable -/
  | loaded (w : ω) (r : S)
  /-- has written the shared variable, before `mux.Unlock()` -/
  | stored
  /-- before the deferred `wg.Done()` -/
  | fin
  /-- finished -/
  | done

/-- The state of a call: goroutines started so far, the counter of the wait group, the owner of the local mutex, the shared variable
(`result`; or `values` and `errs`), the states of the metrics, the program counters, and how the call ended. -/
structure St (σ ω S : Type) where
  spawned : Nat
  wg : Nat
  owner : Option Nat
  shared : S
  cells : Nat → σ
  pc : Nat → PC ω S
  returned : Bool
  crashed : Bool

/-- The start of a call. -/
def St.init (cells : Nat → σ) (s : S) : St σ ω S := ⟨0, 0, none, s, cells, fun _ => .ready, false, false⟩

/-- One transition of the call; `n` metrics, `job i` is the call of the metric's method with what it reports, `add` updates the shared
variable. The call is over when it has returned or crashed (a panic in a goroutine ends the program). -/
inductive Step (n : Nat) (job : Nat → σ → Go (σ × Option ω)) (add : S → ω → S) : St σ ω S → St σ ω S → Prop where
  /-- simple_aggregate.go:35-46, 69-83, 104-110 the loop: `wg.Add(1); go func(..)`. -/
  | spawn (t : St σ ω S) : t.returned = false → t.crashed = false → t.spawned < n →
      Step n job add t { t with spawned := t.spawned + 1, wg := t.wg + 1 }
  /-- simple_aggregate.go:39-40, 108: the metric is called, nothing to report. -/
  | quiet (t : St σ ω S) (i : Nat) (c : σ) : t.returned = false → t.crashed = false → i < t.spawned → t.pc i = .ready →
      job i (t.cells i) = .val (c, none) →
      Step n job add t { t with cells := Function.update t.cells i c, pc := Function.update t.pc i .fin }
  /-- simple_aggregate.go:39-40, 73: the metric is called, something to report. -/
  | report (t : St σ ω S) (i : Nat) (c : σ) (w : ω) : t.returned = false → t.crashed = false → i < t.spawned → t.pc i = .ready →
      job i (t.cells i) = .val (c, some w) →
      Step n job add t { t with cells := Function.update t.cells i c, pc := Function.update t.pc i (.waiting w) }
  /-- The metric panics: the program ends. -/
  | crash (t : St σ ω S) (i : Nat) : t.returned = false → t.crashed = false → i < t.spawned → t.pc i = .ready →
      job i (t.cells i) = .panic → Step n job add t { t with crashed := true }
  /-- simple_aggregate.go:41, 75 `mux.Lock()`. -/
  | lock (t : St σ ω S) (i : Nat) (w : ω) : t.returned = false → t.crashed = false → t.pc i = .waiting w → t.owner = none →
      Step n job add t { t with owner := some i, pc := Function.update t.pc i (.holding w) }
  /-- simple_aggregate.go:42, 77, 79: the variable is read … -/
  | load (t : St σ ω S) (i : Nat) (w : ω) : t.returned = false → t.crashed = false → t.pc i = .holding w →
      Step n job add t { t with pc := Function.update t.pc i (.loaded w t.shared) }
  /-- … and written. -/
  | store (t : St σ ω S) (i : Nat) (w : ω) (r : S) : t.returned = false → t.crashed = false → t.pc i = .loaded w r →
      Step n job add t { t with shared := add r w, pc := Function.update t.pc i .stored }
  /-- simple_aggregate.go:43, 81 `mux.Unlock()`. -/
  | unlock (t : St σ ω S) (i : Nat) : t.returned = false → t.crashed = false → t.pc i = .stored →
      Step n job add t { t with owner := none, pc := Function.update t.pc i .fin }
  /-- simple_aggregate.go:38, 72, 107 `wg.Done()`. -/
  | wgDone (t : St σ ω S) (i : Nat) : t.returned = false → t.crashed = false → t.pc i = .fin →
      Step n job add t { t with wg := t.wg - 1, pc := Function.update t.pc i .done }
  /-- simple_aggregate.go:48, 85, 112 `wg.Wait()` returns when the counter is zero. -/
  | wait (t : St σ ω S) : t.returned = false → t.crashed = false → t.spawned = n → t.wg = 0 →
      Step n job add t { t with returned := true }

/-- An execution: any number of transitions; the number is the first argument. -/
inductive Steps (n : Nat) (job : Nat → σ → Go (σ × Option ω)) (add : S → ω → S) : Nat → St σ ω S → St σ ω S → Prop where
  | refl (t : St σ ω S) : Steps n job add 0 t t
  | step {k : Nat} {t u v : St σ ω S} : Steps n job add k t u → Step n job add u v → Steps n job add (k + 1) t v

/-! ## The three methods -/

/-- metric.go:11-20 the interface `SimpleMetric` (and `SimpleJointMetric`, lines 35-44). -/
structure Metric (σ A F : Type) where
  push : σ → A → Go (σ × Option Err)
  value : σ → Go (Except Err F)
  clear : σ → Go σ
  name : String

variable {A F : Type}

/-- simple_aggregate.go:37-45 the goroutine of `Push`: it reports an error. -/
def pushJob (ms : List (Metric σ A F)) (x : A) (i : Nat) (s : σ) : Go (σ × Option Err) :=
  match ms[i]? with
  | some m => m.push s x
  | none => .val (s, none)

/-- simple_aggregate.go:42 `result = multierror.Append(result, err)`. -/
def addErr (r : List Err) (e : Err) : List Err := r ++ [e]

/-- simple_aggregate.go:50-55: `nil` if no error was reported, else all of them. -/
def pushResult (t : St σ Err (List Err)) : Option (List Err) := if t.shared = [] then none else some t.shared

/-- simple_aggregate.go:71-81 the goroutine of `Values`: it reports an error, or a value with the name of the metric. The state does not
change. -/
def valuesJob (ms : List (Metric σ A F)) (i : Nat) (s : σ) : Go (σ × Option (Except Err (String × F))) :=
  match ms[i]? with
  | some m => do
    let r ← m.value s
    match r with
    | .error e => pure (s, some (.error e))
    | .ok v => pure (s, some (.ok (m.name, v)))
  | none => .val (s, none)

/-- simple_aggregate.go:76-80: `errs = append(errs, err)` or `values[metric.String()] = val`. A map is a function. -/
def addValue (r : (String → Option F) × List Err) : Except Err (String × F) → (String → Option F) × List Err
  | .error e => (r.1, r.2 ++ [e])
  | .ok (k, v) => (Function.update r.1 k (some v), r.2)

/-- simple_aggregate.go:87-95: the errors, or the map. -/
def valuesResult (t : St σ (Except Err (String × F)) ((String → Option F) × List Err)) : Except (List Err) (String → Option F) :=
  if t.shared.2 ≠ [] then .error t.shared.2 else .ok t.shared.1

/-- simple_aggregate.go:106-109 the goroutine of `Clear`; nothing is reported. -/
def clearJob (ms : List (Metric σ A F)) (i : Nat) (s : σ) : Go (σ × Option Empty) :=
  match ms[i]? with
  | some m => do
    let s ← m.clear s
    pure (s, none)
  | none => .val (s, none)

/-- An execution of `Push` that returned: the states of the metrics and the error. -/
def Pushed (ms : List (Metric σ A F)) (c : Nat → σ) (x : A) (c' : Nat → σ) (e : Option (List Err)) : Prop :=
  ∃ k t, Steps ms.length (pushJob ms x) addErr k (St.init c []) t ∧ t.returned = true ∧ t.cells = c' ∧ pushResult t = e

/-- An execution of `Values` that returned. -/
def Valued (ms : List (Metric σ A F)) (c : Nat → σ) (c' : Nat → σ) (r : Except (List Err) (String → Option F)) : Prop :=
  ∃ k t, Steps ms.length (valuesJob ms) addValue k (St.init c (fun _ => none, [])) t ∧ t.returned = true ∧ t.cells = c' ∧
    valuesResult t = r

/-- An execution of `Clear` that returned. -/
def Cleared (ms : List (Metric σ A F)) (c : Nat → σ) (c' : Nat → σ) : Prop :=
  ∃ k t, Steps ms.length (clearJob ms) (fun (u : Unit) (_ : Empty) => u) k (St.init c ()) t ∧ t.returned = true ∧ t.cells = c'

end Verif.Aggregate
