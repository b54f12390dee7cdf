import Verif.Model.LockedMetrics

/-! # Bodies of critical sections

The theorems about locks hold for every division of the methods into atomic actions. Here are two: every method one action, and some
methods divided where the code calls the queue, the deque or another function. -/

namespace Verif.Locks
open Verif Prog

namespace Prog
variable {σ β : Type}

/-- A function of the memory as one action; `d` is the result if there is none. -/
def call (g : σ → Go (σ × β)) (d : β) : Prog σ β :=
  once g fun s => match g s with
    | .val x => x.2
    | _ => d

end Prog

variable {σ A V R : Type}

/-- Every method one action. -/
def single (D : Methods σ A V R) (d : R) : Body σ A V R where
  push x := call (fun s => D.push s x) none
  get v := call (fun s => do let r ← D.get s v; pure (s, r)) d
  clear := act (fun s => .val (D.clear s)) fun _ => ret ()

/-- Every method of `moment.Core` one action. -/
def coreSingle (K : Type) [Field K] : CoreBody K where
  push x := call (fun c => Moment.push c x) none
  clear := act (fun c => .val (Moment.clear c)) fun _ => ret ()
  count := look Moment.count
  mean := look Moment.mean
  sum k := look fun c => Moment.sum c k

/-- Every method of `joint.Core` one action. -/
def jointSingle (K : Type) [Field K] : JointBody K where
  push x := call (fun c => Joint.push c x) none
  clear := act (fun c => .val (Joint.clear c)) fun _ => ret ()
  count := look Joint.count
  mean i := look fun c => Joint.mean c i
  sum k := look fun c => Joint.sum c k

/-! ## joint/autocov.go and joint/autocorr.go -/

section auto
variable {K : Type} [Field K] [LinearOrder K] (r : K → K) (corr : Bool) (lag window : Int)

/-- `Push` and `Clear` one action each. -/
def autoSingle : AutoBody K where
  core := jointSingle K
  push x := call (fun s => (autoMethods r corr lag window).push s x) none
  clear := act (fun s => .val ((autoMethods r corr lag window).clear s)) fun _ => ret ()

/-- autocov.go:79, 93, autocorr.go:79, 93: `core.UnsafePush(x, y)`. -/
def autoCore (x y : K) : Prog (AutoMem K) (Option Err) :=
  call (fun s => match Joint.push s.core [x, y] with
    | .panic => .panic
    | .hang => .hang
    | .val (c, some e) => .val ({ s with core := c }, some ("error pushing to core: " ++ e))
    | .val (c, none) => .val ({ s with core := c }, none)) none

/-- autocov.go:87, autocorr.go:87: `queue.Get()`. -/
def autoGet : Prog (AutoMem K) (Except Err K) :=
  call (fun s => match s.queue.get with
    | .panic => .panic
    | .hang => .hang
    | .val (.error e) => .val (s, .error ("error popping item from lag queue: " ++ e))
    | .val (.ok (tail, q)) => .val ({ s with queue := q }, .ok tail)) (.error "")

/-- autocov.go:99, autocorr.go:99: `queue.Put(x)`. -/
def autoPut (x : K) : Prog (AutoMem K) (Option Err) :=
  call (fun s => match s.queue.put x with
    | .panic => .panic
    | .hang => .hang
    | .val (.error e) => .val (s, some ("error pushing to lag queue: " ++ e))
    | .val (.ok q) => .val ({ s with queue := q }, none)) none

/-- `Push` divided at the calls of the queue and of the core, `Clear` at its two assignments. -/
def autoSteps : AutoBody K where
  core := jointSingle K
  push x :=
    if lag = 0 then autoCore x x
    else (look fun s => (s.queue.len : Int)).bind fun n =>
      if n ≥ lag then
        autoGet.bind fun g => match g with
          | .error e => ret (some e)
          | .ok tail => (autoCore x tail).bind fun e => match e with
            | some e => ret (some e)
            | none => autoPut x
      else autoPut x
  clear := act (fun s => .val { s with core := Joint.clear s.core }) fun _ =>
    act (fun s => .val { s with queue := Ring.new lag.toNat }) fun _ => ret ()

end auto

/-! ## moment/core.go -/

section moment
variable {K : Type} [Field K]

/-- core.go:78: `c.queue.Get()`. -/
def coreGet : Prog (Moment.Core K) (Except Err K) :=
  call (fun c => match c.queue.get with
    | .panic => .panic
    | .hang => .hang
    | .val (.error e) => .val (c, .error e)
    | .val (.ok (t, q)) => .val ({ c with queue := q }, .ok t)) (.error "")

/-- core.go:86: `c.queue.Put(x)`. -/
def corePut (x : K) : Prog (Moment.Core K) (Option Err) :=
  call (fun c => match c.queue.put x with
    | .panic => .panic
    | .hang => .hang
    | .val (.error e) => .val (c, some e)
    | .val (.ok q) => .val ({ c with queue := q }, none)) none

/-- core.go:83: `c.remove(tail.(float64))`. -/
def coreRemove (t : K) : Prog (Moment.Core K) Unit :=
  call (fun c => match Moment.remove c t with
    | .panic => .panic
    | .hang => .hang
    | .val c => .val (c, ())) ()

/-- core.go:92-98. -/
def coreAdd (x : K) : Prog (Moment.Core K) (Option Err) := call (fun c => Moment.pushAdd c x) none

/-- core.go:86-98. -/
def corePutAdd (x : K) : Prog (Moment.Core K) (Option Err) :=
  (corePut x).bind fun e => match e with
    | some e => ret (some e)
    | none => coreAdd x

/-- core.go:75-98 `UnsafePush`, one action per step of the code. -/
def coreUnsafePush (x : K) : Prog (Moment.Core K) (Option Err) :=
  (look fun c => c.window).bind fun w =>
    if w ≠ 0 then
      (look fun c => c.queue.len).bind fun n =>
        if (n : Int) = w then
          coreGet.bind fun r => match r with
            | .error e => ret (some e)
            | .ok t => (coreRemove t).bind fun _ => corePutAdd x
        else corePutAdd x
    else coreAdd x

/-- core.go:251-262 `UnsafeClear`. -/
def coreUnsafeClear : Prog (Moment.Core K) Unit :=
  act (fun c => .val { c with sums := fun _ => 0 }) fun _ =>
  act (fun c => .val { c with count := 0 }) fun _ =>
  act (fun c => .val { c with mean := 0 }) fun _ =>
  act (fun c => .val { c with queue := Ring.new c.window.toNat }) fun _ => ret ()

/-- core.go:229-241 `UnsafeSum`. -/
def coreUnsafeSum (k : Int) : Prog (Moment.Core K) (Except Err K) :=
  (look fun c => c.count).bind fun n =>
    if n = 0 then ret (.error "no values seen yet")
    else (look fun c => c.len).bind fun l =>
      if k ≤ 0 ∨ k ≥ l then ret (.error "not a tracked power sum")
      else look fun c => .ok (c.sums k.toNat)

/-- core.go:209-217 `UnsafeMean`. -/
def coreUnsafeMean : Prog (Moment.Core K) (Except Err K) :=
  (look fun c => c.count).bind fun n => if n = 0 then ret (.error "no values seen yet") else look fun c => .ok c.mean

/-- The methods of `moment.Core`, step by step. -/
def coreSteps (K : Type) [Field K] : CoreBody K where
  push := coreUnsafePush
  clear := coreUnsafeClear
  count := look Moment.count
  mean := coreUnsafeMean
  sum := coreUnsafeSum

end moment

/-! ## sample/sample.go -/

/-- sample.go:21-26. -/
def reservoirRest {α : Type} (x : α) (index : Nat) : Prog (Sample.Reservoir α) (Option Err) :=
  (look fun r => r.count).bind fun n => (look fun r => r.size).bind fun size =>
    if (n : Int) ≤ size then act (fun r => .val { r with sample := r.sample ++ [x] }) fun _ => ret none
    else if (index : Int) < size then
      act (fun r => if index < r.sample.length then .val { r with sample := r.sample.set index x } else .panic) fun _ => ret none
    else ret none

/-- sample.go:16-37, step by step. -/
def reservoirSteps {α : Type} : Body (Sample.Reservoir α) (α × Nat) Unit (List α) where
  push x := act (fun r => .val { r with count := r.count + 1 }) fun _ => reservoirRest x.1 x.2
  get _ := look fun r => r.sample
  clear := ret ()

/-! ## minmax/max.go -/

section max
variable {F : Type} [GoOrd F] (O : MinMax.Ext F)

/-- max.go:76-88. -/
def maxPut (x : F) : Prog (MinMax.Max.St F) (Option Err) :=
  (call (β := Option Err) (fun s => match s.queue.put x with
    | .panic => .panic
    | .hang => .hang
    | .val (.error e) => .val (s, some e)
    | .val (.ok q) => .val ({ s with queue := q }, none)) none).bind fun e => match e with
  | some e => ret (some e)
  | none =>
    act (fun s => .val { s with count := s.count + 1 }) fun _ =>
    act (fun s => .val { s with deque := (MinMax.Max.popBack x s.deque.reverse).1.reverse,
                                removed := s.removed + (MinMax.Max.popBack x s.deque.reverse).2 }) fun _ =>
    act (fun s => .val { s with deque := s.deque ++ [x] }) fun _ => ret none

/-- max.go:63-74. -/
def maxEvict (v : F) : Prog (MinMax.Max.St F) Unit :=
  act (fun s => .val { s with count := s.count - 1 }) fun _ =>
  act (fun s => match s.deque with
    | [] => .panic
    | f :: d => if f =ᵇ v then .val { s with deque := d, removed := s.removed + 1 } else .val s) fun _ => ret ()

/-- max.go:62-94, step by step. -/
def maxPush (x : F) : Prog (MinMax.Max.St F) (Option Err) :=
  (look fun s => s.window).bind fun w =>
    if w ≠ 0 then
      (look fun s => s.queue.len).bind fun n =>
        if (n : Int) = w then
          (call (β := Except Err F) (fun s => match s.queue.get with
            | .panic => .panic
            | .hang => .hang
            | .val (.error e) => .val (s, .error e)
            | .val (.ok (v, q)) => .val ({ s with queue := q }, .ok v)) (.error "")).bind fun r => match r with
          | .error e => ret (some e)
          | .ok v => (maxEvict v).bind fun _ => maxPut x
        else maxPut x
    else
      act (fun s => .val { s with count := s.count + 1 }) fun _ =>
      act (fun s => .val { s with ext := O.max s.ext x }) fun _ => ret none

/-- max.go:101-108, step by step. -/
def maxValue : Prog (MinMax.Max.St F) (Except Err F) :=
  (look fun s => s.count).bind fun n =>
    if n = 0 then ret (.error "no values seen yet")
    else (look fun s => s.window).bind fun w =>
      if w = 0 then look fun s => .ok s.ext
      else act (fun s => match s.deque with | [] => .panic | _ :: _ => .val s) fun s => match s.deque with
        | [] => ret (.error "")
        | f :: _ => ret (.ok f)

/-- max.go:115-118, step by step. -/
def maxClear : Prog (MinMax.Max.St F) Unit :=
  act (fun s => .val { s with count := 0 }) fun _ =>
  act (fun s => .val { s with ext := O.negInf }) fun _ =>
  act (fun s => .val { s with queue := Ring.new s.window.toNat }) fun _ =>
  act (fun s => .val { s with deque := [] }) fun _ => ret ()

/-- The methods of `minmax.Max`, step by step. -/
def maxSteps : Body (MinMax.Max.St F) F Unit (Except Err F) where
  push := maxPush O
  get _ := maxValue
  clear := maxClear O

end max

end Verif.Locks
