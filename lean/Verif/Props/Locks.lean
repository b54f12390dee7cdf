import Verif.Proofs.Objects
import Verif.Proofs.Quiet
import Verif.Proofs.Sched
import Verif.Proofs.LockedStatements
import Verif.Proofs.Decide
import Verif.Proofs.Quantile
import Mathlib.Data.Rat.Floor

/-! # C59, C60: concurrent use of a metric

`T` are the goroutines, any number of them; `s0` the state of the metric when they start. A body (`Body`, `CoreBody`, `JointBody`) is the
division of the methods into atomic actions; the theorems hold for all divisions. -/

namespace Verif.Props
open Verif Verif.Spec Verif.Locks

set_option linter.unusedSectionVars false

variable {T : Type} [DecidableEq T]

/-! ## C59 -/

section c59

/-- `moment.Core`: `Push`, `Count`, `Mean`, `Sum`, `Clear`. -/
theorem C59_moment_core {K : Type} [Field K] [LinearOrder K] {B : CoreBody K} (h : B.OK) (s0 : Moment.Core K) :
    Atomic T (coreProg B) (coreMethods K).sem s0 := atomic (coreProg_crit h) (coreProg_run h)

/-- The metrics of package `moment`. -/
theorem C59_moment_metrics {K : Type} [Field K] [LinearOrder K] (r p : K → K) {B : CoreBody K} (h : B.OK) (kind : Moment.Kind K)
    (s0 : Moment.Core K) : Atomic T (momentObj r p B kind) (momentMethods r p kind).sem s0 :=
  atomic (momentObj_crit h kind) (momentObj_run h kind)

/-- `joint.Core`. -/
theorem C59_joint_core {K : Type} [Field K] [LinearOrder K] {B : JointBody K} (h : B.OK) (s0 : Joint.Core K) :
    Atomic T (jointProg B) (jointMethods K).sem s0 := atomic (jointProg_crit h) (jointProg_run h)

/-- Cov, Corr, EWMCov, EWMCorr. -/
theorem C59_joint_metrics {K : Type} [Field K] [LinearOrder K] (r : K → K) {B : JointBody K} (h : B.OK) (kind : Joint.Kind K)
    (s0 : Joint.Core K) : Atomic T (jointObj r B kind) (pairMethods r kind).sem s0 :=
  atomic (jointObj_crit h kind) (jointObj_run h kind)

/-- `quantile.Quantile`, with any order statistic. -/
theorem C59_quantile {F : Type} [GoOrd F] (O : FOps F) {st : Quant.Statistic F} {B : Body (Quant.Quantile st) F F (Except Err F)}
    (h : B.OK (quantileMethods O st)) (s0 : Quant.Quantile st) : Atomic T (quantileObj O B) (quantileMethods O st).sem s0 :=
  atomic (quantileObj_crit h) (quantileObj_run h)

/-- `quantile.Median`. -/
theorem C59_median {F : Type} [GoOrd F] (O : FOps F) {st : Quant.Statistic F} {B : Body (Quant.Quantile st) F F (Except Err F)}
    (h : B.OK (quantileMethods O st)) (s0 : Quant.Quantile st) : Atomic T (medianObj O B) (medianMethods O st).sem s0 :=
  atomic (medianObj_crit h) (medianObj_run h)

/-- `quantile.IQR`. -/
theorem C59_iqr {F : Type} [GoOrd F] (O : FOps F) {st : Quant.Statistic F} {B : Body (Quant.Quantile st) F F (Except Err F)}
    (h : B.OK (quantileMethods O st)) (s0 : Quant.Quantile st) : Atomic T (iqrObj O B) (iqrMethods O st).sem s0 :=
  atomic (iqrObj_crit h) (iqrObj_run h)

/-- `quantile.HeapMedian`. -/
theorem C59_heap_median {F : Type} [GoOrd F] (O : FOps F) {B : Body (HeapMedian.HM F) F Unit (Except Err F)}
    (h : B.OK (heapMedianMethods O)) (s0 : HeapMedian.HM F) : Atomic T (mutexed B) (heapMedianMethods O).sem s0 :=
  atomic (mutexed_crit h) (mutexed_run h)

/-- `minmax.Max`. -/
theorem C59_max {F : Type} [GoOrd F] (O : MinMax.Ext F) {B : Body (MinMax.Max.St F) F Unit (Except Err F)} (h : B.OK (maxMethods O))
    (s0 : MinMax.Max.St F) : Atomic T (mutexed B) (maxMethods O).sem s0 := atomic (mutexed_crit h) (mutexed_run h)

/-- `minmax.Min`. -/
theorem C59_min {F : Type} [GoOrd F] (O : MinMax.Ext F) {B : Body (MinMax.Min.St F) F Unit (Except Err F)} (h : B.OK (minMethods O))
    (s0 : MinMax.Min.St F) : Atomic T (mutexed B) (minMethods O).sem s0 := atomic (mutexed_crit h) (mutexed_run h)

/-- `sample.Reservoir`. -/
theorem C59_reservoir {α : Type} {B : Body (Sample.Reservoir α) (α × Nat) Unit (List α)} (h : B.OK reservoirMethods)
    (s0 : Sample.Reservoir α) : Atomic T (mutexed B) reservoirMethods.sem s0 := atomic (mutexed_crit h) (mutexed_run h)

/-- The code itself, divided into actions at its calls and its reads and writes of fields: `moment.Core`, `sample.Reservoir` and `minmax.Max`
do what they do when used by one goroutine, and are atomic. -/
theorem C59_steps {K : Type} [Field K] [LinearOrder K] {α F : Type} [GoOrd F] (O : MinMax.Ext F) (s0 : Moment.Core K)
    (r0 : Sample.Reservoir α) (m0 : MinMax.Max.St F) :
    Atomic T (coreProg (coreSteps K)) (coreMethods K).sem s0 ∧ Atomic T (mutexed (reservoirSteps (α := α))) reservoirMethods.sem r0 ∧
      Atomic T (mutexed (maxSteps O)) (maxMethods O).sem m0 :=
  ⟨C59_moment_core coreSteps_ok s0, C59_reservoir reservoirSteps_ok r0, C59_max O (maxSteps_ok O) m0⟩

/-- The hypotheses hold for methods that are one action, and for methods divided at the calls of the code. -/
example : (coreSingle ℚ).OK ∧ (coreSteps ℚ).OK ∧ (jointSingle ℚ).OK ∧ (reservoirSteps (α := Nat)).OK reservoirMethods :=
  ⟨coreSingle_ok, coreSteps_ok, jointSingle_ok, reservoirSteps_ok⟩

/-- Two goroutines push 3 and 5 to `Max` step by step, with moves in between; the first one reads 5. Goroutine 1 asks for the lock while
goroutine 0 is pushing. -/
example : ∃ s : St (Fin 2) _ _ _, Steps (mutexed (maxSteps (MinMax.Ext.ofOrder (Fin 10)))) (St.init (MinMax.Max.fresh (.ofOrder _) 2)) s ∧
    s.hist = [.inv 0 0 (.push 3), .inv 1 1 (.push 5), .res 0 (.pushed none), .inv 2 0 (.get ()), .res 1 (.pushed none), .res 2 (.got (.ok 5))] := by
  refine exists_exec (l := [.call 0 (.push 3), .go 0, .go 0, .go 0, .call 1 (.push 5)] ++ List.replicate 7 (.go 0) ++ [.call 0 (.get ())] ++
    List.replicate 10 (.go 1) ++ List.replicate 7 (.go 0)) ?_
  decide +kernel

end c59

/-! ## C60 -/

section c60

/-- The metrics of package `moment` whose `Value` takes the read lock twice. -/
def Nested {K : Type} : Moment.Kind K → Prop
  | .ewmMoment .. => False
  | .ewmStd .. => False
  | _ => True

/-- … and of package `joint`. -/
def JNested {K : Type} : Joint.Kind K → Prop
  | .ewmCov .. => False
  | _ => True

/-- A `Value` and a `Push` wait for each other for ever, and with them the whole program if nothing else is going on. -/
def CanDeadlock {A V R σ : Type} (T : Type) [DecidableEq T] (obj : Call A V → Prog σ (Out R)) (s0 : σ) (v : V) : Prop :=
  ∀ (t u : T) (x : A), t ≠ u → ∃ s : St T (Call A V) σ (Out R), Steps obj (St.init s0) s ∧
    s.hist = [.inv 0 t (.get v), .inv 1 u (.push x)] ∧ Deadlock s ∧ StuckForever obj t s ∧ StuckForever obj u s

theorem canDeadlock {A V R σ : Type} {obj : Call A V → Prog σ (Out R)} {s0 : σ} {v : V} (h : ∃ p, obj (.get v) = .rlock (.rlock p))
    (h' : ∀ x, ∃ p, obj (.push x) = .lock p) : CanDeadlock T obj s0 v := by
  intro t u x htu
  obtain ⟨p, hp⟩ := h
  obtain ⟨p', hp'⟩ := h' x
  obtain ⟨s, hs, hst, hc, hi, hh⟩ := stuck_reachable (s0 := s0) htu hp hp'
  exact ⟨s, hs, hh, hst.deadlock hc hi, hst.forever.1, hst.forever.2⟩

/-- The property fails: Mean, Moment, Std, Skewness, Kurtosis, EWMA. Any initial state and any division of the methods into actions. -/
theorem C60_refuted_moment {K : Type} [Field K] [LinearOrder K] (r p : K → K) (B : CoreBody K) (kind : Moment.Kind K) (hk : Nested kind)
    (s0 : Moment.Core K) : CanDeadlock T (momentObj r p B kind) s0 () := by
  refine canDeadlock ?_ fun x => ⟨_, rfl⟩
  cases kind with
  | mean => exact ⟨_, rfl⟩
  | moment => exact ⟨_, rfl⟩
  | std => exact ⟨_, rfl⟩
  | skewness => exact ⟨_, rfl⟩
  | kurtosis => exact ⟨_, rfl⟩
  | ewma => exact ⟨_, rfl⟩
  | ewmMoment => exact hk.elim
  | ewmStd => exact hk.elim

/-- The property fails: Cov, Corr, EWMCorr. -/
theorem C60_refuted_joint {K : Type} [Field K] [LinearOrder K] (r : K → K) (B : JointBody K) (kind : Joint.Kind K) (hk : JNested kind)
    (s0 : Joint.Core K) (t u : T) (htu : t ≠ u) (x y : K) :
    ∃ s : St T _ _ _, Steps (jointObj r B kind) (St.init s0) s ∧ s.hist = [.inv 0 t (.get ()), .inv 1 u (.push [x, y])] ∧ Deadlock s ∧
      StuckForever (jointObj r B kind) t s ∧ StuckForever (jointObj r B kind) u s := by
  have h : ∃ p, jointObj r B kind (.get ()) = .rlock (.rlock p) := by
    cases kind with
    | cov => exact ⟨_, rfl⟩
    | corr => exact ⟨_, rfl⟩
    | ewmCorr => exact ⟨_, rfl⟩
    | ewmCov => exact hk.elim
  have h' : ∃ p, jointObj r B kind (.push [x, y]) = .lock p := ⟨_, rfl⟩
  obtain ⟨p, hp⟩ := h
  obtain ⟨p', hp'⟩ := h'
  obtain ⟨s, hs, hst, hc, hi, hh⟩ := stuck_reachable (s0 := s0) htu hp hp'
  exact ⟨s, hs, hh, hst.deadlock hc hi, hst.forever.1, hst.forever.2⟩

/-- The property fails: IQR. -/
theorem C60_refuted_iqr {F : Type} [GoOrd F] (O : FOps F) {st : Quant.Statistic F} (B : Body (Quant.Quantile st) F F (Except Err F))
    (hO : ((O.div (O.ofInt 1) (O.ofInt 4) ≤ᵇ O.ofInt 0) || (O.ofInt 1 ≤ᵇ O.div (O.ofInt 1) (O.ofInt 4))) = false) (s0 : Quant.Quantile st) :
    CanDeadlock T (iqrObj O B) s0 () := by
  refine canDeadlock ?_ fun x => ⟨_, rfl⟩
  have e : quantileValue O B (O.div (O.ofInt 1) (O.ofInt 4)) = Prog.rlocked (B.get (O.div (O.ofInt 1) (O.ofInt 4))) := by
    unfold quantileValue
    rw [hO]; rfl
  show ∃ p, Prog.map Out.got (iqrProg O B) = _
  unfold iqrProg
  rw [e]
  exact ⟨_, rfl⟩

example : let O := Quant.exact ℚ
    ((O.div (O.ofInt 1) (O.ofInt 4) ≤ᵇ O.ofInt 0) || (O.ofInt 1 ≤ᵇ O.div (O.ofInt 1) (O.ofInt 4))) = false := by decide +kernel

/-! What does hold. First the metrics with a single read lock or none: any mix of calls ends, however they are scheduled. -/

section ends
variable [Finite T]

theorem C60_moment_core_partial {K : Type} [Field K] [LinearOrder K] [GoOrd K] {B : CoreBody K} (h : B.OK) {c : Moment.Config K} {s0 : Moment.Core K}
    (h0 : Moment.newCore c = .ok s0) : CallsEnd T (coreProg B) s0 :=
  callsEnd (coreProg_crit h) (coreProg_flat h) (core_quiet.ne_hang (Moment.newCore_qok h0) (coreProg_run h))

/-- EWMMoment and EWMStd. -/
theorem C60_ewm_moment_partial {K : Type} [Field K] [LinearOrder K] [GoOrd K] (r p : K → K) {B : CoreBody K} (h : B.OK) {kind : Moment.Kind K}
    (hk : ¬ Nested kind) {c : Moment.Config K} {s0 : Moment.Core K} (h0 : Moment.newCore c = .ok s0) :
    CallsEnd T (momentObj r p B kind) s0 := by
  refine callsEnd (momentObj_crit h kind) (fun c => ?_) ((moment_quiet r p kind).ne_hang (Moment.newCore_qok h0) (momentObj_run h kind))
  cases c with
  | push x => exact (Prog.Flat.locked (h.push_plain x)).map _
  | clear => exact (Prog.Flat.locked h.clear_plain).map _
  | get v =>
    cases kind with
    | ewmMoment k d => exact ((Prog.Flat.rlocked (h.sum_read k).plain).map _).map _
    | ewmStd d => exact (((Prog.Flat.rlocked (h.sum_read 2).plain).map _).map _).map _
    | mean => exact absurd trivial hk
    | moment => exact absurd trivial hk
    | std => exact absurd trivial hk
    | skewness => exact absurd trivial hk
    | kurtosis => exact absurd trivial hk
    | ewma => exact absurd trivial hk

theorem C60_joint_core_partial {K : Type} [Field K] [LinearOrder K] [GoOrd K] {B : JointBody K} (h : B.OK) {c : Joint.Config K} {s0 : Joint.Core K}
    (h0 : Joint.newCore c = .val (.ok s0)) : CallsEnd T (jointProg B) s0 :=
  callsEnd (jointProg_crit h) (jointProg_flat h) (joint_quiet.ne_hang (Joint.newCore_qok h0) (jointProg_run h))

theorem C60_ewm_cov_partial {K : Type} [Field K] [LinearOrder K] [GoOrd K] (r : K → K) {B : JointBody K} (h : B.OK) (decay : K)
    {c : Joint.Config K} {s0 : Joint.Core K} (h0 : Joint.newCore c = .val (.ok s0)) : CallsEnd T (jointObj r B (.ewmCov decay)) s0 := by
  refine callsEnd (jointObj_crit h _) (fun c => ?_) ((pair_quiet r _).ne_hang (Joint.newCore_qok h0) (jointObj_run h _))
  cases c with
  | push x =>
    refine Prog.Flat.map ?_ _
    unfold pairPush
    by_cases hx : x.length ≠ 2
    · rw [if_pos hx]; exact .inl (.ret _)
    · rw [if_neg hx]; exact (Prog.Flat.locked (h.push_plain x)).map _
  | clear => exact (Prog.Flat.locked h.clear_plain).map _
  | get v => exact ((Prog.Flat.rlocked (h.sum_read _).plain).map _).map _

/-- Quantile; the three order statistics of the package meet `StatQuiet` (`rbStat_quiet`, `avlStat_quiet`, `skipStat_quiet`). -/
theorem C60_quantile_partial {F : Type} [GoOrd F] (O : FOps F) {st : Quant.Statistic F} {J : st.σ → Prop} (hst : Quant.StatQuiet st J)
    {B : Body (Quant.Quantile st) F F (Except Err F)} (h : B.OK (quantileMethods O st)) (window interpolation : Int) (hw : 0 ≤ window) :
    CallsEnd T (quantileObj O B) (Quant.Quantile.fresh st window interpolation) :=
  callsEnd (quantileObj_crit h) (quantileObj_flat h)
    ((quantile_quiet O hst).ne_hang ⟨hw, RingOK.new hw, hst.empty⟩ (quantileObj_run h))

theorem C60_median_partial {F : Type} [GoOrd F] (O : FOps F) {st : Quant.Statistic F} {J : st.σ → Prop} (hst : Quant.StatQuiet st J)
    {B : Body (Quant.Quantile st) F F (Except Err F)} (h : B.OK (quantileMethods O st)) (window interpolation : Int) (hw : 0 ≤ window) :
    CallsEnd T (medianObj O B) (Quant.Quantile.fresh st window interpolation) :=
  callsEnd (medianObj_crit h) (medianObj_flat h)
    ((median_quiet O hst).ne_hang ⟨hw, RingOK.new hw, hst.empty⟩ (medianObj_run h))

theorem C60_heap_median_partial {F : Type} [GoOrd F] (O : FOps F) {B : Body (HeapMedian.HM F) F Unit (Except Err F)}
    (h : B.OK (heapMedianMethods O)) {zero : F} {window : Int} {s0 : HeapMedian.HM F} (h0 : HeapMedian.new zero window = .ok s0) :
    CallsEnd T (mutexed B) s0 := by
  refine callsEnd (mutexed_crit h) (mutexed_flat h) ((heapMedian_quiet O).ne_hang ?_ (mutexed_run h))
  unfold HeapMedian.new at h0
  by_cases hw : window < 0
  · rw [if_pos hw] at h0; cases h0
  · rw [if_neg hw] at h0; cases h0
    exact ⟨not_lt.1 hw, RingOK.new (not_lt.1 hw)⟩

theorem C60_max_partial {F : Type} [GoOrd F] (O : MinMax.Ext F) {B : Body (MinMax.Max.St F) F Unit (Except Err F)} (h : B.OK (maxMethods O))
    {window : Int} {s0 : MinMax.Max.St F} (h0 : MinMax.Max.new O window = .ok s0) : CallsEnd T (mutexed B) s0 := by
  refine callsEnd (mutexed_crit h) (mutexed_flat h) ((max_quiet O).ne_hang ?_ (mutexed_run h))
  unfold MinMax.Max.new at h0
  by_cases hw : window < 0
  · rw [if_pos hw] at h0; cases h0
  · rw [if_neg hw] at h0; cases h0
    exact ⟨not_lt.1 hw, RingOK.new (not_lt.1 hw)⟩

theorem C60_min_partial {F : Type} [GoOrd F] (O : MinMax.Ext F) {B : Body (MinMax.Min.St F) F Unit (Except Err F)} (h : B.OK (minMethods O))
    {window : Int} {s0 : MinMax.Min.St F} (h0 : MinMax.Min.new O window = .ok s0) : CallsEnd T (mutexed B) s0 := by
  refine callsEnd (mutexed_crit h) (mutexed_flat h) ((min_quiet O).ne_hang ?_ (mutexed_run h))
  unfold MinMax.Min.new at h0
  by_cases hw : window < 0
  · rw [if_pos hw] at h0; cases h0
  · rw [if_neg hw] at h0; cases h0
    exact ⟨not_lt.1 hw, RingOK.new (not_lt.1 hw)⟩

theorem C60_reservoir_partial {α : Type} {B : Body (Sample.Reservoir α) (α × Nat) Unit (List α)} (h : B.OK reservoirMethods)
    (s0 : Sample.Reservoir α) : CallsEnd T (mutexed B) s0 :=
  callsEnd (mutexed_crit h) (mutexed_flat h) (reservoir_quiet.ne_hang trivial (mutexed_run h))

end ends

/-! For the other metrics, a deadlock needs a call that writes: calls of `Value` alone never block each other. -/

/-- Some call other than `Value` (or `Sum` and so on) is in progress. -/
def WriterInProgress {A V R σ : Type} (s : St T (Call A V) σ (Out R)) : Prop := ∃ id t c, (∀ v, c ≠ .get v) ∧ InProgress s.hist id t c

theorem writerInProgress {A V R σ : Type} {obj : Call A V → Prog σ (Out R)} {s0 : σ} (hobj : ∀ m, (obj m).Crit)
    (hh : ∀ lin q, SeqRun (fun m => (obj m).run) s0 lin q → ∀ m, (obj m).run q ≠ .hang) (hget : ∀ v p, obj (.get v) ≠ .lock p)
    {s : St T (Call A V) σ (Out R)} (hs : Steps obj (St.init s0) s) (hd : Deadlock s) : WriterInProgress s := by
  obtain ⟨t, u, _, id, m, ⟨p, hp⟩, hi⟩ := deadlock_stuck (sections hobj) trivial hh hs hd
  exact ⟨id, u, m, fun v hv => hget v p (hv ▸ hp), hi⟩

theorem C60_readers_moment_partial {K : Type} [Field K] [LinearOrder K] [GoOrd K] (r p : K → K) {B : CoreBody K} (h : B.OK)
    (kind : Moment.Kind K) {c : Moment.Config K} {s0 : Moment.Core K} (h0 : Moment.newCore c = .ok s0)
    {s : St T _ _ _} (hs : Steps (momentObj r p B kind) (St.init s0) s) (hd : Deadlock s) : WriterInProgress s := by
  refine writerInProgress (momentObj_crit h kind) ((moment_quiet r p kind).ne_hang (Moment.newCore_qok h0) (momentObj_run h kind)) ?_ hs hd
  intro v q e
  cases kind <;> cases e

theorem C60_readers_joint_partial {K : Type} [Field K] [LinearOrder K] [GoOrd K] (r : K → K) {B : JointBody K} (h : B.OK)
    (kind : Joint.Kind K) {c : Joint.Config K} {s0 : Joint.Core K} (h0 : Joint.newCore c = .val (.ok s0))
    {s : St T _ _ _} (hs : Steps (jointObj r B kind) (St.init s0) s) (hd : Deadlock s) : WriterInProgress s := by
  refine writerInProgress (jointObj_crit h kind) ((pair_quiet r kind).ne_hang (Joint.newCore_qok h0) (jointObj_run h kind)) ?_ hs hd
  intro v q e
  cases kind <;> cases e

theorem C60_readers_iqr_partial {F : Type} [GoOrd F] (O : FOps F) {st : Quant.Statistic F} {J : st.σ → Prop} (hst : Quant.StatQuiet st J)
    {B : Body (Quant.Quantile st) F F (Except Err F)} (h : B.OK (quantileMethods O st)) (window interpolation : Int) (hw : 0 ≤ window)
    {s : St T _ _ _} (hs : Steps (iqrObj O B) (St.init (Quant.Quantile.fresh st window interpolation)) s) (hd : Deadlock s) :
    WriterInProgress s := by
  refine writerInProgress (iqrObj_crit h) ((iqr_quiet O hst).ne_hang ⟨hw, RingOK.new hw, hst.empty⟩ (iqrObj_run h)) ?_ hs hd
  intro v q e
  cases e

/-- The initial states exist. -/
example : (∃ s0 : Moment.Core ℚ, Moment.newCore ⟨some [2], some 3, none⟩ = .ok s0) ∧
    (∃ s0 : Joint.Core ℚ, Joint.newCore ⟨some [[1, 1]], some 3, none, none⟩ = .val (.ok s0)) ∧
    (∃ s0 : HeapMedian.HM ℚ, HeapMedian.new 0 3 = .ok s0) ∧ (∃ s0, MinMax.Max.new (.ofOrder (Fin 10)) 3 = .ok s0) :=
  ⟨⟨_, rfl⟩, ⟨_, rfl⟩, ⟨_, rfl⟩, ⟨_, rfl⟩⟩

end c60

end Verif.Props
