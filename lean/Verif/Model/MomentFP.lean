import Verif.Model.Moment
import Verif.Model.XF
import Verif.Model.Rounding

/-!
# `moment/core.go` over an arbitrary arithmetic

`Model/Moment.lean` reads `float64` as a field, i.e. without rounding, NaN and infinities. Here the same code is read over an arbitrary
arithmetic: a type with operations and no laws whatever. `Proofs/MomentFP.lean` proves that over the operations of a field this is the
model of `Model/Moment.lean`. No fused multiply-add (Go fuses on some architectures, not on amd64).
-/

namespace Verif.FP
open Verif.Spec Verif.MathUtil

/-- The operations on `float64` that core.go uses; `pow x k` is `math.Pow(x, float64(k))`, `ofInt` the conversion. -/
structure Arith (F : Type) where
  add : F → F → F
  sub : F → F → F
  mul : F → F → F
  div : F → F → F
  neg : F → F
  pow : F → Nat → F
  ofInt : Int → F

/-- Exact arithmetic. -/
def Arith.exact (K : Type) [Field K] : Arith K :=
  ⟨(· + ·), (· - ·), (· * ·), (· / ·), (- ·), (· ^ ·), fun i => (i : K)⟩

/-- Every operation is exact on ℚ and then rounded; negation is exact (it is in IEEE 754). `math.Pow` is not correctly rounded in general,
so it is a parameter. Finite numbers only: `rnd` does not overflow, and zeros are unsigned. -/
def Arith.rounded (rnd : ℚ → ℚ) (pw : ℚ → Nat → ℚ) : Arith ℚ :=
  ⟨fun x y => rnd (x + y), fun x y => rnd (x - y), fun x y => rnd (x * y), fun x y => rnd (x / y), (- ·), pw, fun i => rnd i⟩

/-- binary64 with a correctly rounded power. -/
def Arith.b64 : Arith ℚ := Arith.rounded rnd64 (fun x k => rnd64 (x ^ k))

/-- IEEE 754 with infinities and NaN; `rnd` may overflow. Zeros are unsigned: a zero divisor counts as `+0`, but the divisors in core.go are
never zero. -/
def Arith.ieee (rnd : ℚ → XF ℚ) (pw : ℚ → Nat → XF ℚ) : Arith (XF ℚ) where
  add
    | .nan, _ => .nan
    | _, .nan => .nan
    | .inf s, .inf t => if s = t then .inf s else .nan
    | .inf s, .fin _ => .inf s
    | .fin _, .inf s => .inf s
    | .fin a, .fin b => rnd (a + b)
  sub
    | .nan, _ => .nan
    | _, .nan => .nan
    | .inf s, .inf t => if s = t then .nan else .inf s
    | .inf s, .fin _ => .inf s
    | .fin _, .inf s => .inf (!s)
    | .fin a, .fin b => rnd (a - b)
  mul
    | .nan, _ => .nan
    | _, .nan => .nan
    | .inf s, .inf t => .inf (s != t)
    | .inf s, .fin b => if b = 0 then .nan else .inf (s != decide (b < 0))
    | .fin a, .inf s => if a = 0 then .nan else .inf (s != decide (a < 0))
    | .fin a, .fin b => rnd (a * b)
  div
    | .nan, _ => .nan
    | _, .nan => .nan
    | .inf _, .inf _ => .nan
    | .fin _, .inf _ => .fin 0
    | .inf s, .fin b => .inf (s != decide (b < 0))
    | .fin a, .fin b => if b = 0 then (if a = 0 then .nan else .inf (decide (a < 0))) else rnd (a / b)
  neg
    | .nan => .nan
    | .inf s => .inf (!s)
    | .fin a => .fin (-a)
  pow x k := match x with
    | .nan => if k = 0 then .fin 1 else .nan
    | .inf s => if k = 0 then .fin 1 else .inf (s && decide (k % 2 = 1))
    | .fin a => pw a k
  ofInt i := rnd i

/-- IEEE 754 comparisons. -/
instance : GoOrd (XF ℚ) where
  lt
    | .fin a, .fin b => decide (a < b)
    | .inf s, .fin _ => s
    | .fin _, .inf s => !s
    | .inf s, .inf t => s && !t
    | _, _ => false
  le
    | .fin a, .fin b => decide (a ≤ b)
    | .inf s, .fin _ => s
    | .fin _, .inf s => !s
    | .inf s, .inf t => s || !t
    | _, _ => false
  eq
    | .fin a, .fin b => decide (a = b)
    | .inf s, .inf t => s == t
    | _, _ => false

/-- Overflow of binary64: `q` is already rounded. -/
def over64 (q : ℚ) : XF ℚ := if two 1024 ≤ q then .inf false else if q ≤ -two 1024 then .inf true else .fin q

/-- binary64. -/
def Arith.ieee64 : Arith (XF ℚ) := Arith.ieee (fun q => over64 (rnd64 q)) (fun x k => over64 (rnd64 (x ^ k)))

open Verif.Moment (Core Config)

variable {F : Type} (A : Arith F)

/-- core.go:37-63 `NewCore`, after validation. -/
def mk (c : Config F) : Core F :=
  let w := c.window.getD 0
  ⟨A.ofInt 0, (((c.sums.getD []).foldl max (-1)) + 1).toNat, fun _ => A.ofInt 0, 0, w, c.decay, Ring.new w.toNat⟩

/-- core.go:37-63 `NewCore`. -/
def newCore [GoOrd F] (c : Config F) : Except Err (Core F) :=
  match Moment.validate (A.ofInt 0) (A.ofInt 1) (Moment.setDefaults c) with
  | some e => .error e
  | none => .ok (mk A (Moment.setDefaults c))

/-- The loop `for i := 1; i <= k-2; i++ { acc op= term i }`: `n` iterations from `i`. -/
def sumLoop (op : F → F → F) (term : Nat → Go F) : Nat → Nat → F → Go F
  | 0, _, acc => .val acc
  | n + 1, i, acc =>
    match term i with
    | .panic => .panic
    | .hang => .hang
    | .val t => sumLoop op term n (i + 1) (op acc t)

/-- `float64(mathutil.Binom(k, i)*mathutil.Sign(i))`, core.go:118, 150, 174. -/
def coef (k i : Nat) : Go F :=
  match binom k i with
  | .panic => .panic
  | .hang => .hang
  | .val b => .val (A.ofInt (wrap (b * sign i)))

/-- core.go:112-121: the new `sums[k]` in `add`. -/
def addEntry (count delta : F) (s : Nat → F) (k : Nat) : Go F :=
  sumLoop A.add (fun i => do
      let c ← coef A k i
      pure (A.mul (A.mul c (A.pow (A.div delta count) i)) (s (k - i))))
    (k - 2) 1
    (A.add (s k) (A.mul (A.mul (A.div (A.sub count (A.ofInt 1)) (A.pow count k))
      (A.add (A.pow (A.sub count (A.ofInt 1)) (k - 1)) (A.ofInt (sign k)))) (A.pow delta k)))

/-- core.go:111-122. -/
def addLoop (count delta : F) : Nat → (Nat → F) → Go (Nat → F)
  | 0, s => .val s
  | 1, s => .val s
  | k + 2, s =>
    match addEntry A count delta s (k + 2) with
    | .panic => .panic
    | .hang => .hang
    | .val v => addLoop count delta (k + 1) (Function.update s (k + 2) v)

/-- core.go:106-123 `add`. -/
def add (c : Core F) (x : F) : Go (Core F) :=
  let count := A.ofInt (c.count + 1)
  let delta := A.sub x c.mean
  match addLoop A count delta (c.len - 1) c.sums with
  | .panic => .panic
  | .hang => .hang
  | .val s => .val { c with count := c.count + 1, mean := A.add c.mean (A.div delta count), sums := s }

/-- core.go:144-154: the new `sums[k]` in `addDecay`. -/
def decayEntry (d delta : F) (s : Nat → F) (k : Nat) : Go F :=
  sumLoop A.add (fun i => do
      let c ← coef A k i
      pure (A.mul (A.mul (A.mul c (A.pow (A.mul d delta) i)) (A.sub (A.ofInt 1) d)) (s (k - i))))
    (k - 2) 1
    (A.add (A.mul (A.sub (A.ofInt 1) d) (s k))
      (A.mul (A.add (A.mul (A.sub (A.ofInt 1) d) (A.pow (A.neg d) k)) (A.mul d (A.pow (A.sub (A.ofInt 1) d) k))) (A.pow delta k)))

/-- core.go:143-155. -/
def decayLoop (d delta : F) : Nat → (Nat → F) → Go (Nat → F)
  | 0, s => .val s
  | 1, s => .val s
  | k + 2, s =>
    match decayEntry A d delta s (k + 2) with
    | .panic => .panic
    | .hang => .hang
    | .val v => decayLoop d delta (k + 1) (Function.update s (k + 2) v)

/-- core.go:131-156 `addDecay`, with the value of `*c.decay`. -/
def addDecay (decay : F) (c : Core F) (x : F) : Go (Core F) :=
  let d := if c.count + 1 = 1 then A.ofInt 1 else decay
  let delta := A.sub x c.mean
  match decayLoop A d delta (c.len - 1) c.sums with
  | .panic => .panic
  | .hang => .hang
  | .val s => .val { c with count := c.count + 1, mean := A.add c.mean (A.mul d delta), sums := s }

/-- core.go:168-177: the new `sums[k]` in `remove`. -/
def removeEntry (count delta : F) (s : Nat → F) (k : Nat) : Go F :=
  sumLoop A.sub (fun i => do
      let c ← coef A k i
      pure (A.mul (A.mul c (A.pow (A.div delta (A.add count (A.ofInt 1))) i)) (s (k - i))))
    (k - 2) 1
    (A.sub (s k) (A.mul (A.mul (A.div count (A.pow (A.add count (A.ofInt 1)) k))
      (A.add (A.pow count (k - 1)) (A.ofInt (sign k)))) (A.pow delta k)))

/-- core.go:167-178. -/
def removeLoop (count delta : F) : Nat → Nat → (Nat → F) → Go (Nat → F)
  | 0, _, s => .val s
  | n + 1, k, s =>
    match removeEntry A count delta s k with
    | .panic => .panic
    | .hang => .hang
    | .val v => removeLoop count delta n (k + 1) (Function.update s k v)

/-- core.go:161-185 `remove`. -/
def remove (c : Core F) (x : F) : Go (Core F) :=
  let cnt := c.count - 1
  if cnt > 0 then
    let count := A.ofInt cnt
    let mean := A.sub c.mean (A.div (A.sub x c.mean) count)
    let delta := A.sub x mean
    match removeLoop A count delta (c.len - 2) 2 c.sums with
    | .panic => .panic
    | .hang => .hang
    | .val s => .val { c with count := cnt, mean := mean, sums := s }
  else .val { c with count := cnt, mean := A.ofInt 0, sums := fun _ => A.ofInt 0 }

/-- core.go:77-84: make room in the window. -/
def evict (c : Core F) : Go (Except Err (Core F)) :=
  if (c.queue.len : Int) = c.window then
    match c.queue.get with
    | .panic => .panic
    | .hang => .hang
    | .val (.error e) => .val (.error e)
    | .val (.ok (t, q)) =>
      match remove A { c with queue := q } t with
      | .panic => .panic
      | .hang => .hang
      | .val c => .val (.ok c)
  else .val (.ok c)

/-- core.go:92-96. -/
def pushAdd (c : Core F) (x : F) : Go (Core F × Option Err) :=
  match (match c.decay with | none => add A c x | some d => addDecay A d c x) with
  | .panic => .panic
  | .hang => .hang
  | .val c => .val (c, none)

/-- core.go:75-98 `UnsafePush` (and 66-70 `Push`). -/
def push (c : Core F) (x : F) : Go (Core F × Option Err) :=
  if c.window ≠ 0 then
    match evict A c with
    | .panic => .panic
    | .hang => .hang
    | .val (.error e) => .val (c, some e)
    | .val (.ok c) =>
      match c.queue.put x with
      | .panic => .panic
      | .hang => .hang
      | .val (.error e) => .val (c, some e)
      | .val (.ok q) => pushAdd A { c with queue := q } x
  else pushAdd A c x

/-- core.go:202-217 `Mean`. -/
def mean (c : Core F) : Except Err F := if c.count = 0 then .error "no values seen yet" else .ok c.mean

/-- core.go:222-241 `Sum`. -/
def sum (c : Core F) (k : Int) : Except Err F :=
  if c.count = 0 then .error "no values seen yet"
  else if k ≤ 0 ∨ k ≥ c.len then .error "not a tracked power sum"
  else .ok (c.sums k.toNat)

/-- moment.go:73-90 `Moment.Value`: `sum / (float64(count) - 1.)` (and ewmmoment.go, which returns the sum itself, see `sum`). -/
def momentValue (c : Core F) (k : Int) : Except Err F :=
  match sum c k with
  | .error e => .error ("error retrieving sum: " ++ e)
  | .ok s => .ok (A.div s (A.sub (A.ofInt c.count) (A.ofInt 1)))

/-- std.go:62-72 `Std.Value`, given `math.Sqrt`. -/
def stdValue (sqrt : F → F) (c : Core F) : Except Err F :=
  match momentValue A c 2 with
  | .error e => .error ("error retrieving 2nd moment: " ++ e)
  | .ok v => .ok (sqrt v)

/-- skewness.go:79-106 `Skewness.Value` of a metric with its core set, given `math.Sqrt` and the power 1.5. `float64(count) == 0` is
decided on the count. -/
def skewnessValue (sqrt pow15 : F → F) (c : Core F) : Except Err F :=
  let count := A.ofInt c.count
  if c.count = 0 then .error "no values seen yet"
  else match momentValue A c 2 with
    | .error e => .error ("error retrieving 2nd moment: " ++ e)
    | .ok v =>
      let variance := A.mul v (A.div (A.sub count (A.ofInt 1)) count)
      match momentValue A c 3 with
      | .error e => .error ("error retrieving 3rd moment: " ++ e)
      | .ok m =>
        let moment := A.mul m (A.div (A.sub count (A.ofInt 1)) count)
        let adjust := A.div (sqrt (A.mul count (A.sub count (A.ofInt 1)))) (A.sub count (A.ofInt 2))
        .ok (A.div (A.mul adjust moment) (pow15 variance))

/-- kurtosis.go:79-106 `Kurtosis.Value` of a metric with its core set. `float64(count) == 0` is decided on the count. -/
def kurtosisValue (c : Core F) : Except Err F :=
  let count := A.ofInt c.count
  if c.count = 0 then .error "no values seen yet"
  else match momentValue A c 2 with
    | .error e => .error ("error retrieving 2nd moment: " ++ e)
    | .ok v =>
      match momentValue A c 4 with
      | .error e => .error ("error retrieving 4th moment: " ++ e)
      | .ok m =>
        let moment := A.mul m (A.div (A.sub count (A.ofInt 1)) count)
        let variance := A.mul v (A.div (A.sub count (A.ofInt 1)) count)
        .ok (A.sub (A.div moment (A.pow variance 2)) (A.ofInt 3))

/-- core.go:244-262 `Clear`. -/
def clear (c : Core F) : Core F :=
  { c with sums := fun _ => A.ofInt 0, count := 0, mean := A.ofInt 0, queue := Ring.new c.window.toNat }

/-- One client operation. -/
def step (c : Core F) : MOp F → Go (Core F × Option Err)
  | .push x => push A c x
  | .clear => .val (clear A c, none)

/-- A whole client history, with the log of all errors returned by `Push`. -/
def run (c : Core F) (ops : List (MOp F)) : Go (Core F × List Err) :=
  Go.runOps (logged (step A)) (c, []) ops

end Verif.FP
