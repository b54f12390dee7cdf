import Verif.Model.Locks
import Verif.Model.MomentMetric
import Verif.Model.JointMetric
import Verif.Model.Quantile
import Verif.Model.HeapMedian
import Verif.Model.MinMax
import Verif.Model.Sample

/-! # The locking of every metric

Which lock each method takes, and where. The body of a critical section is a program without lock operations (`Plain`); the theorems hold
for every way to divide it into atomic actions, as long as run alone it computes what the model of the method in the other files computes
(`CoreBody.OK` and so on), and a body under a read lock does not write. `Model/LockedStatements.lean` divides some of them into the
statements of the code. The checks of `IsSetCore` are left out: the core is set before the goroutines start. -/

namespace Verif.Locks
open Verif Prog

/-- A call by a client: `Push`, one of the methods that return something, `Clear`. -/
inductive Call (A V : Type) where
  | push (x : A)
  | get (v : V)
  | clear
  deriving DecidableEq

/-- What it returns. -/
inductive Out (R : Type) where
  | pushed (e : Option Err)
  | got (r : R)
  | cleared
  deriving DecidableEq

/-- The result of a method, in `Out`. -/
def Prog.map {σ β γ : Type} (f : β → γ) (p : Prog σ β) : Prog σ γ := p.bind fun b => ret (f b)

/-- A body for each kind of method. -/
structure Body (σ A V R : Type) where
  push : A → Prog σ (Option Err)
  get : V → Prog σ R
  clear : Prog σ Unit

/-- The methods run one after the other. -/
structure Methods (σ A V R : Type) where
  push : σ → A → Go (σ × Option Err)
  get : σ → V → Go R
  clear : σ → σ

/-- The sequential meaning of a call. -/
def Methods.sem {σ A V R : Type} (D : Methods σ A V R) : Call A V → σ → Go (σ × Out R)
  | .push x, s => do
    let r ← D.push s x
    pure (r.1, .pushed r.2)
  | .get v, s => do
    let r ← D.get s v
    pure (s, .got r)
  | .clear, s => .val (D.clear s, .cleared)

/-- The bodies compute what the methods compute; `Value` and the like do not write. -/
structure Body.OK {σ A V R : Type} (B : Body σ A V R) (D : Methods σ A V R) : Prop where
  push_plain : ∀ x, (B.push x).Plain
  push_run : ∀ x s, (B.push x).run s = D.push s x
  get_read : ∀ v, (B.get v).ReadOnly
  get_run : ∀ v s, (B.get v).run s = (do let r ← D.get s v; pure (s, r))
  clear_plain : B.clear.Plain
  clear_run : ∀ s, B.clear.run s = .val (D.clear s, ())

variable {σ A V R : Type}

/-! ## The classes themselves -/

/-- A class with a `sync.Mutex`, every method in one critical section: `minmax.Max` (max.go:59-60, 98-99, 112-113), `minmax.Min`
(min.go:59-60, 98-99, 112-113), `quantile.HeapMedian` (heap_median.go:65-66, 128-129, 150-151), `sample.Reservoir` (sample.go:18-19, 31-32;
it has no `Clear`). -/
def mutexed (B : Body σ A V R) : Call A V → Prog σ (Out R)
  | .push x => (locked (B.push x)).map .pushed
  | .get v => (locked (B.get v)).map .got
  | .clear => (locked B.clear).map fun _ => .cleared

/-- A class with a `sync.RWMutex`: `moment.Core` (core.go:67-68, 189-190, 203-204, 223-224, 245-247), `joint.Core` (core.go:81-82, 345-346,
359-360, 384-385, 407-409), `quantile.Quantile` after the check of the argument (quantile.go:69-70, 99-100, 147-148). -/
def rwmutexed (B : Body σ A V R) : Call A V → Prog σ (Out R)
  | .push x => (locked (B.push x)).map .pushed
  | .get v => (rlocked (B.get v)).map .got
  | .clear => (locked B.clear).map fun _ => .cleared

/-! ## Package `minmax`, `sample`, `quantile.HeapMedian` -/

/-- minmax/max.go. -/
def maxMethods {F : Type} [GoOrd F] (O : MinMax.Ext F) : Methods (MinMax.Max.St F) F Unit (Except Err F) :=
  ⟨MinMax.Max.push O, fun s _ => MinMax.Max.value s, MinMax.Max.clear O⟩

/-- minmax/min.go. -/
def minMethods {F : Type} [GoOrd F] (O : MinMax.Ext F) : Methods (MinMax.Min.St F) F Unit (Except Err F) :=
  ⟨MinMax.Min.push O, fun s _ => MinMax.Min.value s, MinMax.Min.clear O⟩

/-- quantile/heap_median.go. -/
def heapMedianMethods {F : Type} [GoOrd F] (O : FOps F) : Methods (HeapMedian.HM F) F Unit (Except Err F) :=
  ⟨HeapMedian.push, fun s _ => HeapMedian.value O s, HeapMedian.clear⟩

/-- sample/sample.go; the number drawn is an argument of the push. There is no `Clear` (never called: `Call.clear` does nothing). -/
def reservoirMethods {α : Type} : Methods (Sample.Reservoir α) (α × Nat) Unit (List α) :=
  ⟨fun s x => do
    let r ← Sample.push s x.1 x.2
    pure (r, none), fun s _ => .val s.sample, fun s => s⟩

/-! ## Package `moment` -/

/-- What `moment.Core` can be asked: core.go:188 `Count`, 202 `Mean`, 222 `Sum`. -/
inductive CoreGet where
  | count
  | mean
  | sum (k : Int)
  deriving DecidableEq

/-- Bodies of the methods of `moment.Core`. -/
structure CoreBody (K : Type) where
  push : K → Prog (Moment.Core K) (Option Err)
  clear : Prog (Moment.Core K) Unit
  count : Prog (Moment.Core K) Int
  mean : Prog (Moment.Core K) (Except Err K)
  sum : Int → Prog (Moment.Core K) (Except Err K)

/-- They compute what the methods compute. -/
structure CoreBody.OK {K : Type} [Field K] (B : CoreBody K) : Prop where
  push_plain : ∀ x, (B.push x).Plain
  push_run : ∀ x c, (B.push x).run c = Moment.push c x
  clear_plain : B.clear.Plain
  clear_run : ∀ c, B.clear.run c = .val (Moment.clear c, ())
  count_read : B.count.ReadOnly
  count_run : ∀ c, B.count.run c = .val (c, Moment.count c)
  mean_read : B.mean.ReadOnly
  mean_run : ∀ c, B.mean.run c = .val (c, Moment.mean c)
  sum_read : ∀ k, (B.sum k).ReadOnly
  sum_run : ∀ k c, (B.sum k).run c = .val (c, Moment.sum c k)

section moment
variable {K : Type} [Field K] [LinearOrder K] (r p : K → K) (B : CoreBody K)

/-- The answer of `moment.Core`: a number of values, or a number or an error. -/
abbrev CoreAns (K : Type) := Int ⊕ Except Err K

/-- moment/core.go: the methods of `Core`. -/
def coreMethods (K : Type) [Field K] : Methods (Moment.Core K) K CoreGet (CoreAns K) :=
  ⟨Moment.push, fun c v => match v with
    | .count => .val (.inl (Moment.count c))
    | .mean => .val (.inr (Moment.mean c))
    | .sum k => .val (.inr (Moment.sum c k)), Moment.clear⟩

/-- moment/core.go:66-70 `Push`. -/
def corePush (x : K) : Prog (Moment.Core K) (Option Err) := locked (B.push x)
/-- moment/core.go:244-248 `Clear`. -/
def coreClear : Prog (Moment.Core K) Unit := locked B.clear
/-- moment/core.go:188-192 `Count`. -/
def coreCount : Prog (Moment.Core K) Int := rlocked B.count
/-- moment/core.go:202-206 `Mean`. -/
def coreMean : Prog (Moment.Core K) (Except Err K) := rlocked B.mean
/-- moment/core.go:222-226 `Sum`. -/
def coreSum (k : Int) : Prog (Moment.Core K) (Except Err K) := rlocked (B.sum k)

/-- The methods of `moment.Core`. -/
def coreProg : Call K CoreGet → Prog (Moment.Core K) (Out (CoreAns K))
  | .push x => (corePush B x).map .pushed
  | .clear => (coreClear B).map fun _ => .cleared
  | .get .count => (coreCount B).map fun n => .got (.inl n)
  | .get .mean => (coreMean B).map fun v => .got (.inr v)
  | .get (.sum k) => (coreSum B k).map fun v => .got (.inr v)

/-- moment/mean.go:64-77, ewma.go:61-74 `Value`: `RLock`, then `Core.Mean`, which takes the read lock again. -/
def meanProg : Prog (Moment.Core K) (Except Err (XF K)) :=
  rlocked ((coreMean B).bind fun v => ret (match Moment.Metric.wrap "error retrieving sum" v with | .error e => .error e | .ok v => .ok (.fin v)))

/-- moment/moment.go:73-90 `Value`. -/
def momentProg (k : Int) : Prog (Moment.Core K) (Except Err (XF K)) :=
  rlocked ((coreSum B k).bind fun v => match Moment.Metric.wrap "error retrieving sum" v with
    | .error e => ret (.error e)
    | .ok s => (coreCount B).bind fun n => ret (.ok (XF.div (.fin s) (.fin ((n : K) - 1)))))

/-- moment/std.go:62-72 `Value`: no lock of its own. -/
def stdProg : Prog (Moment.Core K) (Except Err (XF K)) :=
  (momentProg B 2).bind fun v => ret (match Moment.Metric.wrap "error retrieving 2nd moment" v with | .error e => .error e | .ok v => .ok (XF.sqrt r v))

/-- moment/skewness.go:79-106 `Value`. -/
def skewnessProg : Prog (Moment.Core K) (Except Err (XF K)) :=
  rlocked ((coreCount B).bind fun n =>
    if (n : K) = 0 then ret (.error "no values seen yet")
    else (momentProg B 2).bind fun v => match Moment.Metric.wrap "error retrieving 2nd moment" v with
      | .error e => ret (.error e)
      | .ok variance => (momentProg B 3).bind fun m => match Moment.Metric.wrap "error retrieving 3rd moment" m with
        | .error e => ret (.error e)
        | .ok moment => ret (.ok (XF.div
            (XF.mul (XF.div (XF.sqrt r (.fin ((n : K) * ((n : K) - 1)))) (.fin ((n : K) - 2)))
              (XF.mul moment (XF.div (.fin ((n : K) - 1)) (.fin (n : K)))))
            (XF.pow15 p (XF.mul variance (XF.div (.fin ((n : K) - 1)) (.fin (n : K))))))))

/-- moment/kurtosis.go:79-106 `Value`. -/
def kurtosisProg : Prog (Moment.Core K) (Except Err (XF K)) :=
  rlocked ((coreCount B).bind fun n =>
    if (n : K) = 0 then ret (.error "no values seen yet")
    else (momentProg B 2).bind fun v => match Moment.Metric.wrap "error retrieving 2nd moment" v with
      | .error e => ret (.error e)
      | .ok variance => (momentProg B 4).bind fun m => match Moment.Metric.wrap "error retrieving 4th moment" m with
        | .error e => ret (.error e)
        | .ok moment => ret (.ok (XF.sub
            (XF.div (XF.mul moment (XF.div (.fin ((n : K) - 1)) (.fin (n : K))))
              (XF.sq (XF.mul variance (XF.div (.fin ((n : K) - 1)) (.fin (n : K)))))) (.fin 3))))

/-- moment/ewmmoment.go:73-84 `Value`: no lock of its own. -/
def ewmMomentProg (k : Int) : Prog (Moment.Core K) (Except Err (XF K)) :=
  (coreSum B k).bind fun v => ret (match Moment.Metric.wrap "error retrieving sum" v with | .error e => .error e | .ok s => .ok (.fin s))

/-- moment/ewmstd.go:56-66 `Value`. -/
def ewmStdProg : Prog (Moment.Core K) (Except Err (XF K)) :=
  (ewmMomentProg B 2).bind fun v => ret (match Moment.Metric.wrap "error retrieving 2nd moment" v with | .error e => .error e | .ok v => .ok (XF.sqrt r v))

/-- `Value` of any metric of the package. -/
def momentValueProg : Moment.Kind K → Prog (Moment.Core K) (Except Err (XF K))
  | .mean _ => meanProg B
  | .moment k _ => momentProg B k
  | .std _ => stdProg r B
  | .skewness _ => skewnessProg r p B
  | .kurtosis _ => kurtosisProg B
  | .ewma _ => meanProg B
  | .ewmMoment k _ => ewmMomentProg B k
  | .ewmStd _ => ewmStdProg r B

/-- `errors.Wrap` in `Push`, see `Moment.Metric.push`. -/
def momentWrap : Moment.Kind K → Option Err → Option Err
  | _, none => none
  | .std _, some e => some ("error pushing to core: error pushing to core: " ++ e)
  | .ewmStd _, some e => some ("error pushing to core: error pushing to core: " ++ e)
  | _, some e => some ("error pushing to core: " ++ e)

/-- A metric of package `moment` shared by goroutines: mean.go:51-84, moment.go:60-97, std.go:49-79, skewness.go:66-113, kurtosis.go:66-113,
ewma.go:48-81, ewmmoment.go:60-91, ewmstd.go:43-73. -/
def momentObj (kind : Moment.Kind K) : Call K Unit → Prog (Moment.Core K) (Out (Except Err (XF K)))
  | .push x => (corePush B x).map fun e => .pushed (momentWrap kind e)
  | .get _ => (momentValueProg r p B kind).map .got
  | .clear => (coreClear B).map fun _ => .cleared

/-- The same metric used by one goroutine, in terms of the model of its methods. -/
def momentMethods (kind : Moment.Kind K) : Methods (Moment.Core K) K Unit (Except Err (XF K)) where
  push c x := do
    let s ← Moment.Metric.push ⟨kind, some c⟩ x
    pure (s.1.core.getD c, s.2)
  get c _ := .val (Moment.Metric.value r p ⟨kind, some c⟩)
  clear c := ((Moment.Metric.clear ⟨kind, some c⟩).core).getD c

end moment

/-! ## Package `joint` -/

/-- What `joint.Core` can be asked: core.go:344 `Count`, 358 `Mean`, 383 `Sum`. -/
inductive JointGet where
  | count
  | mean (i : Int)
  | sum (t : Joint.Tuple)

/-- Bodies of the methods of `joint.Core`. -/
structure JointBody (K : Type) where
  push : List K → Prog (Joint.Core K) (Option Err)
  clear : Prog (Joint.Core K) Unit
  count : Prog (Joint.Core K) Int
  mean : Int → Prog (Joint.Core K) (Except Err K)
  sum : Joint.Tuple → Prog (Joint.Core K) (Except Err K)

/-- They compute what the methods compute. -/
structure JointBody.OK {K : Type} [Field K] (B : JointBody K) : Prop where
  push_plain : ∀ x, (B.push x).Plain
  push_run : ∀ x c, (B.push x).run c = Joint.push c x
  clear_plain : B.clear.Plain
  clear_run : ∀ c, B.clear.run c = .val (Joint.clear c, ())
  count_read : B.count.ReadOnly
  count_run : ∀ c, B.count.run c = .val (c, Joint.count c)
  mean_read : ∀ i, (B.mean i).ReadOnly
  mean_run : ∀ i c, (B.mean i).run c = .val (c, Joint.mean c i)
  sum_read : ∀ k, (B.sum k).ReadOnly
  sum_run : ∀ k c, (B.sum k).run c = .val (c, Joint.sum c k)

section joint
variable {K : Type} [Field K] [LinearOrder K] (r : K → K) (B : JointBody K)

/-- joint/core.go: the methods of `Core`. -/
def jointMethods (K : Type) [Field K] : Methods (Joint.Core K) (List K) JointGet (CoreAns K) :=
  ⟨Joint.push, fun c v => match v with
    | .count => .val (.inl (Joint.count c))
    | .mean i => .val (.inr (Joint.mean c i))
    | .sum k => .val (.inr (Joint.sum c k)), Joint.clear⟩

/-- joint/core.go:80-84 `Push`. -/
def jointPush (xs : List K) : Prog (Joint.Core K) (Option Err) := locked (B.push xs)
/-- joint/core.go:406-410 `Clear`. -/
def jointClear : Prog (Joint.Core K) Unit := locked B.clear
/-- joint/core.go:344-348 `Count`. -/
def jointCount : Prog (Joint.Core K) Int := rlocked B.count
/-- joint/core.go:358-362 `Mean`. -/
def jointMean (i : Int) : Prog (Joint.Core K) (Except Err K) := rlocked (B.mean i)
/-- joint/core.go:383-387 `Sum`. -/
def jointSum (t : Joint.Tuple) : Prog (Joint.Core K) (Except Err K) := rlocked (B.sum t)

/-- The methods of `joint.Core`. -/
def jointProg : Call (List K) JointGet → Prog (Joint.Core K) (Out (CoreAns K))
  | .push x => (jointPush B x).map .pushed
  | .clear => (jointClear B).map fun _ => .cleared
  | .get .count => (jointCount B).map fun n => .got (.inl n)
  | .get (.mean i) => (jointMean B i).map fun v => .got (.inr v)
  | .get (.sum k) => (jointSum B k).map fun v => .got (.inr v)

/-- joint/cov.go:72-89 `Value`. -/
def covProg : Prog (Joint.Core K) (Except Err (XF K)) :=
  rlocked ((jointSum B [1, 1]).bind fun v => match Joint.wrapErr "error retrieving sum" v with
    | .error e => ret (.error e)
    | .ok s => (jointCount B).bind fun n => ret (.ok (XF.div (.fin s) (.fin ((n : K) - 1)))))

/-- joint/corr.go:77-106, ewmcorr.go:74-103 `Value`. -/
def corrProg : Prog (Joint.Core K) (Except Err (XF K)) :=
  rlocked ((jointSum B [1, 1]).bind fun v => match Joint.wrapErr "error retrieving sum for {1, 1}" v with
    | .error e => ret (.error e)
    | .ok cov => (jointSum B [2, 0]).bind fun v => match Joint.wrapErr "error retrieving sum for {2, 0}" v with
      | .error e => ret (.error e)
      | .ok xVar => (jointSum B [0, 2]).bind fun v => match Joint.wrapErr "error retrieving sum for {0, 2}" v with
        | .error e => ret (.error e)
        | .ok yVar => ret (.ok (XF.div (.fin cov) (XF.sqrt r (.fin (xVar * yVar))))))

/-- joint/ewmcov.go:69-80 `Value`: no lock of its own. -/
def ewmCovProg : Prog (Joint.Core K) (Except Err (XF K)) :=
  (jointSum B [1, 1]).bind fun v => ret (match Joint.wrapErr "error retrieving sum" v with | .error e => .error e | .ok s => .ok (.fin s))

/-- `Value` of any metric on pairs. -/
def jointValueProg : Joint.Kind K → Prog (Joint.Core K) (Except Err (XF K))
  | .cov _ => covProg B
  | .corr _ => corrProg r B
  | .ewmCov _ => ewmCovProg B
  | .ewmCorr _ => corrProg r B

/-- `Push` of a metric on pairs: the number of values is checked before the lock is taken. cov.go:51-69, corr.go:56-74, ewmcov.go:48-66,
ewmcorr.go:53-71. -/
def pairPush (kind : Joint.Kind K) (xs : List K) : Prog (Joint.Core K) (Option Err) :=
  if xs.length ≠ 2 then ret (some kind.arity)
  else (jointPush B xs).bind fun e => ret (match e with | none => none | some e => some ("error pushing to core: " ++ e))

/-- A metric on pairs shared by goroutines. -/
def jointObj (kind : Joint.Kind K) : Call (List K) Unit → Prog (Joint.Core K) (Out (Except Err (XF K)))
  | .push xs => (pairPush B kind xs).map .pushed
  | .get _ => (jointValueProg r B kind).map .got
  | .clear => (jointClear B).map fun _ => .cleared

/-- The same metric used by one goroutine. -/
def pairMethods (kind : Joint.Kind K) : Methods (Joint.Core K) (List K) Unit (Except Err (XF K)) where
  push c x := do
    let s ← Joint.Metric.push ⟨kind, some c⟩ x
    pure (s.1.core.getD c, s.2)
  get c _ := .val (Joint.Metric.value r ⟨kind, some c⟩)
  clear c := ((Joint.Metric.clear ⟨kind, some c⟩).core).getD c

end joint

/-! ## Autocov and Autocorr -/

/-- The memory of an `Autocov` or `Autocorr` that goroutines share: autocov.go:17, 19. Lag and window do not change. -/
structure AutoMem (K : Type) where
  queue : Ring K
  core : Joint.Core K

/-- A program on the core, as a program on the metric. -/
def Prog.onCore {K β : Type} : Prog (Joint.Core K) β → Prog (AutoMem K) β
  | .ret b => .ret b
  | .act f k => .act (fun s => match f s.core with
      | .val c => .val { s with core := c }
      | .panic => .panic
      | .hang => .hang) fun s => (k s.core).onCore
  | .rlock p => .rlock p.onCore
  | .runlock p => .runlock p.onCore
  | .lock p => .lock p.onCore
  | .unlock p => .unlock p.onCore

/-- Bodies of the methods of the metric: those of its core, and those of `Push` and `Clear`. -/
structure AutoBody (K : Type) where
  core : JointBody K
  push : K → Prog (AutoMem K) (Option Err)
  clear : Prog (AutoMem K) Unit

section auto
variable {K : Type} [Field K] [LinearOrder K] (r : K → K) (corr : Bool) (lag window : Int)

/-- The metric in the model of its methods (`Model/JointMetric.lean`). -/
def AutoMem.auto (s : AutoMem K) : Joint.Auto K := ⟨corr, lag, window, s.queue, some s.core⟩

/-- The metric used by one goroutine. -/
def autoMethods : Methods (AutoMem K) K Unit (Except Err (XF K)) where
  push s x := do
    let a ← Joint.Auto.push (s.auto corr lag window) x
    pure (⟨a.1.queue, a.1.core.getD s.core⟩, a.2)
  get s _ := .val (Joint.Auto.value r (s.auto corr lag window))
  clear s := ⟨(Joint.Auto.clear (s.auto corr lag window)).queue, ((Joint.Auto.clear (s.auto corr lag window)).core).getD s.core⟩

/-- The bodies compute what the methods compute. -/
structure AutoBody.OK (B : AutoBody K) : Prop where
  core : B.core.OK
  push_plain : ∀ x, (B.push x).Plain
  push_run : ∀ x s, (B.push x).run s = (autoMethods r corr lag window).push s x
  clear_plain : B.clear.Plain
  clear_run : ∀ s, B.clear.run s = .val ((autoMethods r corr lag window).clear s, ())

variable (B : AutoBody K)

/-- autocov.go:108-119, autocorr.go:108-119 `Value`: `Core.Count` takes and releases the read lock, then `Cov.Value` or `Corr.Value` takes it
again. -/
def autoValue : Prog (AutoMem K) (Except Err (XF K)) :=
  (jointCount B.core).onCore.bind fun n =>
    if n = 0 then ret (.error "Not enough values seen")
    else (if corr then corrProg r B.core else covProg B.core).onCore

/-- autocov.go:70-130, autocorr.go:70-130: the metric shared by goroutines. -/
def autoObj : Call K Unit → Prog (AutoMem K) (Out (Except Err (XF K)))
  | .push x => (locked (B.push x)).map .pushed
  | .get _ => (autoValue r corr B).map .got
  | .clear => (locked B.clear).map fun _ => .cleared

end auto

/-! ## Package `quantile` -/

section quantile
variable {F : Type} [GoOrd F] (O : FOps F) {st : Quant.Statistic F}

/-- quantile.go: the methods of `Quantile`. -/
def quantileMethods (st : Quant.Statistic F) : Methods (Quant.Quantile st) F F (Except Err F) :=
  ⟨Quant.Quantile.push, fun q v => q.value O v, Quant.Quantile.clear⟩

variable (B : Body (Quant.Quantile st) F F (Except Err F))

/-- quantile.go:94-143 `Value`: the argument is checked before the lock is taken. -/
def quantileValue (v : F) : Prog (Quant.Quantile st) (Except Err F) :=
  if (v ≤ᵇ O.ofInt 0) || (O.ofInt 1 ≤ᵇ v) then ret (.error "quantile not in (0, 1)") else rlocked (B.get v)

/-- The methods of `quantile.Quantile`. -/
def quantileObj : Call F F → Prog (Quant.Quantile st) (Out (Except Err F))
  | .push x => (locked (B.push x)).map .pushed
  | .get v => (quantileValue O B v).map .got
  | .clear => (locked B.clear).map fun _ => .cleared

/-- median.go:40-60 `Median`: no lock of its own. -/
def medianObj : Call F Unit → Prog (Quant.Quantile st) (Out (Except Err F))
  | .push x => (locked (B.push x)).map .pushed
  | .get _ => (quantileValue O B (O.div (O.ofInt 1) (O.ofInt 2))).map .got
  | .clear => (locked B.clear).map fun _ => .cleared

/-- The same used by one goroutine. -/
def medianMethods (st : Quant.Statistic F) : Methods (Quant.Quantile st) F Unit (Except Err F) :=
  ⟨Quant.Quantile.push, fun q _ => q.medianValue O, Quant.Quantile.clear⟩

/-- iqr.go:47-62 `Value`: `RLock`, then `Quantile.Value`, which takes the read lock again. -/
def iqrProg : Prog (Quant.Quantile st) (Except Err F) :=
  rlocked ((quantileValue O B (O.div (O.ofInt 1) (O.ofInt 4))).bind fun v => match v with
    | .error e => ret (.error e)
    | .ok q25 => (quantileValue O B (O.div (O.ofInt 3) (O.ofInt 4))).bind fun v => match v with
      | .error e => ret (.error e)
      | .ok q75 => ret (.ok (O.sub q75 q25)))

/-- iqr.go:38-67 `IQR`. -/
def iqrObj : Call F Unit → Prog (Quant.Quantile st) (Out (Except Err F))
  | .push x => (locked (B.push x)).map .pushed
  | .get _ => (iqrProg O B).map .got
  | .clear => (locked B.clear).map fun _ => .cleared

/-- The same used by one goroutine. -/
def iqrMethods (st : Quant.Statistic F) : Methods (Quant.Quantile st) F Unit (Except Err F) :=
  ⟨Quant.Quantile.push, fun q _ => q.iqrValue O, Quant.Quantile.clear⟩

end quantile

end Verif.Locks
