import Verif.Proofs.Deadlock
import Verif.Model.LockedMetrics

/-! # The methods of the metrics are single critical sections -/

set_option linter.unusedSectionVars false

namespace Verif.Locks
open Verif Verif.Spec Prog

variable {T M σ β γ : Type} [DecidableEq T]

/-! ## Building blocks -/

theorem Prog.Writes.map {p : Prog σ β} (h : p.Writes) (f : β → γ) : (p.map f).Writes := by
  induction h with
  | act _ ih => exact .act ih
  | unlock b => exact .unlock (f b)

theorem Prog.Crit.map {p : Prog σ β} (h : p.Crit) (f : β → γ) : (p.map f).Crit := by
  cases h with
  | ret b => exact .ret (f b)
  | rlock h => exact .rlock (h.bind fun b => .ret (f b))
  | lock h => exact .lock (h.map f)

theorem Prog.run_map (p : Prog σ β) (f : β → γ) (s : σ) : (p.map f).run s = (do let x ← p.run s; pure (x.1, f x.2)) := run_bind ..

/-- A part of a method that reads under a read lock taken before, and may take more. -/
def Prog.Reader (p : Prog σ β) : Prop := ∀ d, 0 < d → Reads d d p

theorem Prog.ReadOnly.reader {p : Prog σ β} (h : p.ReadOnly) : p.Reader := fun _ hd => h.reads hd

theorem Prog.Reader.ret (b : β) : (Prog.ret b : Prog σ β).Reader := fun _ _ => .ret b

theorem Prog.Reader.bind {p : Prog σ β} (h : p.Reader) {g : β → Prog σ γ} (hg : ∀ b, (g b).Reader) : (p.bind g).Reader :=
  fun d hd => (h d hd).bind fun b => hg b d hd

theorem Prog.Reader.rlocked {p : Prog σ β} (h : p.Reader) : (Prog.rlocked p).Reader := fun d hd => .rlocked hd (h (d + 1) (by omega))

theorem Prog.Reader.crit {p : Prog σ β} (h : p.Reader) : (Prog.rlocked p).Crit := .rlocked (h 1 (by omega))

/-- The program reads `v`. -/
def Prog.Computes (p : Prog σ β) (v : σ → β) : Prop := ∀ s, p.run s = .val (s, v s)

theorem Prog.Computes.rlocked {p : Prog σ β} {v : σ → β} (h : p.Computes v) : (Prog.rlocked p).Computes v :=
  fun s => (run_rlocked p s).trans (h s)

theorem Prog.Computes.bind {p : Prog σ β} {v : σ → β} (h : p.Computes v) {g : β → Prog σ γ} {w : σ → γ}
    (hg : ∀ s, (g (v s)).run s = .val (s, w s)) : (p.bind g).Computes w := by
  intro s
  rw [run_bind, h s]
  exact hg s

/-! ## Classes with one critical section per method -/

theorem mutexed_crit {A V R : Type} {B : Body σ A V R} {D : Methods σ A V R} (h : B.OK D) (c : Call A V) : (mutexed B c).Crit := by
  cases c with
  | push x => exact (Crit.locked (h.push_plain x)).map _
  | get v => exact (Crit.locked (h.get_read v).plain).map _
  | clear => exact (Crit.locked h.clear_plain).map _

theorem mutexed_flat {A V R : Type} {B : Body σ A V R} {D : Methods σ A V R} (h : B.OK D) (c : Call A V) : (mutexed B c).Flat := by
  cases c with
  | push x => exact (Flat.locked (h.push_plain x)).map _
  | get v => exact (Flat.locked (h.get_read v).plain).map _
  | clear => exact (Flat.locked h.clear_plain).map _

theorem mutexed_run {A V R : Type} {B : Body σ A V R} {D : Methods σ A V R} (h : B.OK D) (c : Call A V) (s : σ) :
    (mutexed B c).run s = D.sem c s := by
  cases c with
  | push x => exact (run_map ..).trans (by rw [run_locked, h.push_run]; rfl)
  | get v =>
    refine (run_map ..).trans ?_
    rw [run_locked, h.get_run]
    show _ = (do let r ← D.get s v; pure (s, Out.got r))
    rcases D.get s v with r | _ | _ <;> rfl
  | clear => exact (run_map ..).trans (by rw [run_locked, h.clear_run]; rfl)

/-! ## moment -/

section moment
variable {K : Type} [Field K] [LinearOrder K] {r p : K → K} {B : CoreBody K}

theorem coreProg_crit (h : B.OK) (c : Call K CoreGet) : (coreProg B c).Crit := by
  cases c with
  | push x => exact (Crit.locked (h.push_plain x)).map _
  | get v =>
    cases v with
    | count => exact h.count_read.reader.crit.map _
    | mean => exact h.mean_read.reader.crit.map _
    | sum k => exact (h.sum_read k).reader.crit.map _
  | clear => exact (Crit.locked h.clear_plain).map _

theorem coreProg_flat (h : B.OK) (c : Call K CoreGet) : (coreProg B c).Flat := by
  cases c with
  | push x => exact (Flat.locked (h.push_plain x)).map _
  | get v =>
    cases v with
    | count => exact (Flat.rlocked h.count_read.plain).map _
    | mean => exact (Flat.rlocked h.mean_read.plain).map _
    | sum k => exact (Flat.rlocked (h.sum_read k).plain).map _
  | clear => exact (Flat.locked h.clear_plain).map _

theorem coreProg_run (h : B.OK) (c : Call K CoreGet) (s : Moment.Core K) : (coreProg B c).run s = (coreMethods K).sem c s := by
  cases c with
  | push x => exact (run_map ..).trans (by rw [corePush, run_locked, h.push_run]; rfl)
  | get v =>
    cases v with
    | count => exact (run_map ..).trans (by rw [coreCount, run_rlocked, h.count_run]; rfl)
    | mean => exact (run_map ..).trans (by rw [coreMean, run_rlocked, h.mean_run]; rfl)
    | sum k => exact (run_map ..).trans (by rw [coreSum, run_rlocked, h.sum_run]; rfl)
  | clear => exact (run_map ..).trans (by rw [coreClear, run_locked, h.clear_run]; rfl)

/-! ### What the values read -/

theorem mean_computes (h : B.OK) : (meanProg B).Computes fun c => Moment.Metric.meanValue (some c) := by
  refine Computes.rlocked (Computes.bind (v := fun c => Moment.mean c) (Computes.rlocked h.mean_run) fun s => ?_)
  simp only [Prog.run, Moment.Metric.meanValue]
  rcases Moment.Metric.wrap "error retrieving sum" (Moment.mean s) with e | v <;> rfl

theorem moment_computes (h : B.OK) (k : Int) : (momentProg B k).Computes fun c => Moment.Metric.momentValue k (some c) := by
  refine Computes.rlocked (Computes.bind (v := fun c => Moment.sum c k) (Computes.rlocked (h.sum_run k)) fun s => ?_)
  simp only [Moment.Metric.momentValue]
  rcases Moment.Metric.wrap "error retrieving sum" (Moment.sum s k) with e | v
  · rfl
  · exact Computes.bind (v := fun c => Moment.count c) (w := fun c => Except.ok (XF.div (.fin v) (.fin ((Moment.count c : K) - 1))))
      (Computes.rlocked h.count_run) (fun s => rfl) s

theorem std_computes (h : B.OK) : (stdProg r B).Computes fun c => Moment.Metric.stdValue r (some c) := by
  refine Computes.bind (moment_computes h 2) fun s => ?_
  simp only [Prog.run, Moment.Metric.stdValue]
  rcases Moment.Metric.wrap "error retrieving 2nd moment" (Moment.Metric.momentValue 2 (some s)) with e | v <;> rfl

theorem skewness_computes (h : B.OK) : (skewnessProg r p B).Computes fun c => Moment.Metric.skewnessValue r p (some c) := by
  refine Computes.rlocked (Computes.bind (v := fun c => Moment.count c) (Computes.rlocked h.count_run) fun s => ?_)
  simp only [Moment.Metric.skewnessValue]
  by_cases hc : (Moment.count s : K) = 0
  · rw [if_pos hc, if_pos (show Moment.Metric.cnt s = 0 from hc)]; rfl
  · rw [if_neg hc, if_neg (show ¬ Moment.Metric.cnt s = 0 from hc), run_bind, moment_computes h 2 s, Go.val_bind]
    simp only []
    rcases Moment.Metric.wrap "error retrieving 2nd moment" (Moment.Metric.momentValue 2 (some s)) with e | v
    · rfl
    · simp only []
      rw [run_bind, moment_computes h 3 s, Go.val_bind]
      simp only []
      rcases Moment.Metric.wrap "error retrieving 3rd moment" (Moment.Metric.momentValue 3 (some s)) with e | v <;> rfl

theorem kurtosis_computes (h : B.OK) : (kurtosisProg B).Computes fun c => Moment.Metric.kurtosisValue (some c) := by
  refine Computes.rlocked (Computes.bind (v := fun c => Moment.count c) (Computes.rlocked h.count_run) fun s => ?_)
  simp only [Moment.Metric.kurtosisValue]
  by_cases hc : (Moment.count s : K) = 0
  · rw [if_pos hc, if_pos (show Moment.Metric.cnt s = 0 from hc)]; rfl
  · rw [if_neg hc, if_neg (show ¬ Moment.Metric.cnt s = 0 from hc), run_bind, moment_computes h 2 s, Go.val_bind]
    simp only []
    rcases Moment.Metric.wrap "error retrieving 2nd moment" (Moment.Metric.momentValue 2 (some s)) with e | v
    · rfl
    · simp only []
      rw [run_bind, moment_computes h 4 s, Go.val_bind]
      simp only []
      rcases Moment.Metric.wrap "error retrieving 4th moment" (Moment.Metric.momentValue 4 (some s)) with e | v <;> rfl

theorem ewmMoment_computes (h : B.OK) (k : Int) : (ewmMomentProg B k).Computes fun c => Moment.Metric.ewmMomentValue k (some c) := by
  refine Computes.bind (v := fun c => Moment.sum c k) (Computes.rlocked (h.sum_run k)) fun s => ?_
  simp only [Prog.run, Moment.Metric.ewmMomentValue]
  rcases Moment.Metric.wrap "error retrieving sum" (Moment.sum s k) with e | v <;> rfl

theorem ewmStd_computes (h : B.OK) : (ewmStdProg r B).Computes fun c => Moment.Metric.ewmStdValue r (some c) := by
  refine Computes.bind (ewmMoment_computes h 2) fun s => ?_
  simp only [Prog.run, Moment.Metric.ewmStdValue]
  rcases Moment.Metric.wrap "error retrieving 2nd moment" (Moment.Metric.ewmMomentValue 2 (some s)) with e | v <;> rfl

theorem momentValue_computes (h : B.OK) (kind : Moment.Kind K) :
    (momentValueProg r p B kind).Computes fun c => Moment.Metric.value r p ⟨kind, some c⟩ := by
  cases kind with
  | mean => exact mean_computes h
  | moment k => exact moment_computes h k
  | std => exact std_computes h
  | skewness => exact skewness_computes h
  | kurtosis => exact kurtosis_computes h
  | ewma => exact mean_computes h
  | ewmMoment k => exact ewmMoment_computes h k
  | ewmStd => exact ewmStd_computes h

/-! ### Their locks -/

theorem moment_reader (h : B.OK) (k : Int) :
    ∃ q, q.Reader ∧ momentProg B k = rlocked q := by
  refine ⟨_, ?_, rfl⟩
  refine (h.sum_read k).reader.rlocked.bind fun v => ?_
  rcases Moment.Metric.wrap "error retrieving sum" v with e | v
  · exact .ret _
  · exact h.count_read.reader.rlocked.bind fun n => .ret _

theorem momentProg_reader (h : B.OK) (k : Int) : (momentProg B k).Reader := by
  obtain ⟨q, hq, e⟩ := moment_reader h k
  exact e ▸ hq.rlocked

theorem momentProg_crit (h : B.OK) (k : Int) : (momentProg B k).Crit := by
  obtain ⟨q, hq, e⟩ := moment_reader h k
  exact e ▸ hq.crit

theorem momentValue_crit (h : B.OK) (kind : Moment.Kind K) : (momentValueProg r p B kind).Crit := by
  cases kind with
  | mean => exact (h.mean_read.reader.rlocked.bind fun v => .ret _).crit
  | moment k => exact momentProg_crit h k
  | std => exact (momentProg_crit h 2).map _
  | skewness =>
    refine Reader.crit (h.count_read.reader.rlocked.bind fun n => ?_)
    by_cases hc : (n : K) = 0
    · rw [if_pos hc]; exact .ret _
    · rw [if_neg hc]
      refine (momentProg_reader h 2).bind fun v => ?_
      rcases Moment.Metric.wrap "error retrieving 2nd moment" v with e | v
      · exact .ret _
      · refine (momentProg_reader h 3).bind fun v => ?_
        rcases Moment.Metric.wrap "error retrieving 3rd moment" v with e | v
        · exact .ret _
        · exact .ret _
  | kurtosis =>
    refine Reader.crit (h.count_read.reader.rlocked.bind fun n => ?_)
    by_cases hc : (n : K) = 0
    · rw [if_pos hc]; exact .ret _
    · rw [if_neg hc]
      refine (momentProg_reader h 2).bind fun v => ?_
      rcases Moment.Metric.wrap "error retrieving 2nd moment" v with e | v
      · exact .ret _
      · refine (momentProg_reader h 4).bind fun v => ?_
        rcases Moment.Metric.wrap "error retrieving 4th moment" v with e | v
        · exact .ret _
        · exact .ret _
  | ewma => exact (h.mean_read.reader.rlocked.bind fun v => .ret _).crit
  | ewmMoment k => exact (h.sum_read k).reader.crit.map _
  | ewmStd => exact ((h.sum_read 2).reader.crit.map _).map _

theorem momentObj_crit (h : B.OK) (kind : Moment.Kind K) (c : Call K Unit) : (momentObj r p B kind c).Crit := by
  cases c with
  | push x => exact (Crit.locked (h.push_plain x)).map _
  | get v => exact (momentValue_crit h kind).map _
  | clear => exact (Crit.locked h.clear_plain).map _

theorem momentObj_run (h : B.OK) (kind : Moment.Kind K) (c : Call K Unit) (s : Moment.Core K) :
    (momentObj r p B kind c).run s = (momentMethods r p kind).sem c s := by
  cases c with
  | push x =>
    refine (run_map ..).trans ?_
    rw [corePush, run_locked, h.push_run]
    simp only [Methods.sem, momentMethods, Moment.Metric.push]
    rcases Moment.push s x with ⟨c, e⟩ | _ | _
    · cases e with
      | none => rfl
      | some e => cases kind <;> rfl
    · rfl
    · rfl
  | get v => exact (run_map ..).trans (by rw [momentValue_computes h kind s]; rfl)
  | clear => exact (run_map ..).trans (by rw [coreClear, run_locked, h.clear_run]; rfl)

end moment

/-! ## joint -/

section joint
variable {K : Type} [Field K] [LinearOrder K] {r : K → K} {B : JointBody K}

theorem jointProg_crit (h : B.OK) (c : Call (List K) JointGet) : (jointProg B c).Crit := by
  cases c with
  | push x => exact (Crit.locked (h.push_plain x)).map _
  | get v =>
    cases v with
    | count => exact h.count_read.reader.crit.map _
    | mean i => exact (h.mean_read i).reader.crit.map _
    | sum k => exact (h.sum_read k).reader.crit.map _
  | clear => exact (Crit.locked h.clear_plain).map _

theorem jointProg_flat (h : B.OK) (c : Call (List K) JointGet) : (jointProg B c).Flat := by
  cases c with
  | push x => exact (Flat.locked (h.push_plain x)).map _
  | get v =>
    cases v with
    | count => exact (Flat.rlocked h.count_read.plain).map _
    | mean i => exact (Flat.rlocked (h.mean_read i).plain).map _
    | sum k => exact (Flat.rlocked (h.sum_read k).plain).map _
  | clear => exact (Flat.locked h.clear_plain).map _

theorem jointProg_run (h : B.OK) (c : Call (List K) JointGet) (s : Joint.Core K) : (jointProg B c).run s = (jointMethods K).sem c s := by
  cases c with
  | push x => exact (run_map ..).trans (by rw [jointPush, run_locked, h.push_run]; rfl)
  | get v =>
    cases v with
    | count => exact (run_map ..).trans (by rw [jointCount, run_rlocked, h.count_run]; rfl)
    | mean i => exact (run_map ..).trans (by rw [jointMean, run_rlocked, h.mean_run]; rfl)
    | sum k => exact (run_map ..).trans (by rw [jointSum, run_rlocked, h.sum_run]; rfl)
  | clear => exact (run_map ..).trans (by rw [jointClear, run_locked, h.clear_run]; rfl)

theorem cov_computes (h : B.OK) : (covProg B).Computes fun c => Joint.Metric.covValue (some c) := by
  refine Computes.rlocked (Computes.bind (v := fun c => Joint.sum c [1, 1]) (Computes.rlocked (h.sum_run _)) fun s => ?_)
  simp only [Joint.Metric.covValue]
  rcases Joint.wrapErr "error retrieving sum" (Joint.sum s [1, 1]) with e | v
  · rfl
  · exact Computes.bind (v := fun c => Joint.count c) (w := fun c => Except.ok (XF.div (.fin v) (.fin ((Joint.count c : K) - 1))))
      (Computes.rlocked h.count_run) (fun s => rfl) s

theorem corr_computes (h : B.OK) : (corrProg r B).Computes fun c => Joint.Metric.corrValue r (some c) := by
  refine Computes.rlocked (Computes.bind (v := fun c => Joint.sum c [1, 1]) (Computes.rlocked (h.sum_run _)) fun s => ?_)
  simp only [Joint.Metric.corrValue]
  rcases Joint.wrapErr "error retrieving sum for {1, 1}" (Joint.sum s [1, 1]) with e | v
  · rfl
  · simp only []
    rw [run_bind, show (jointSum B [2, 0]).run s = _ from Computes.rlocked (v := fun c => Joint.sum c [2, 0]) (h.sum_run _) s, Go.val_bind]
    simp only []
    rcases Joint.wrapErr "error retrieving sum for {2, 0}" (Joint.sum s [2, 0]) with e | v
    · rfl
    · simp only []
      rw [run_bind, show (jointSum B [0, 2]).run s = _ from Computes.rlocked (v := fun c => Joint.sum c [0, 2]) (h.sum_run _) s, Go.val_bind]
      simp only []
      rcases Joint.wrapErr "error retrieving sum for {0, 2}" (Joint.sum s [0, 2]) with e | v <;> rfl

theorem ewmCov_computes (h : B.OK) : (ewmCovProg B).Computes fun c => Joint.Metric.ewmCovValue (some c) := by
  refine Computes.bind (v := fun c => Joint.sum c [1, 1]) (Computes.rlocked (h.sum_run _)) fun s => ?_
  simp only [Prog.run, Joint.Metric.ewmCovValue]
  rcases Joint.wrapErr "error retrieving sum" (Joint.sum s [1, 1]) with e | v <;> rfl

theorem jointValue_computes (h : B.OK) (kind : Joint.Kind K) :
    (jointValueProg r B kind).Computes fun c => Joint.Metric.value r ⟨kind, some c⟩ := by
  cases kind with
  | cov => exact cov_computes h
  | corr => exact corr_computes h
  | ewmCov => exact ewmCov_computes h
  | ewmCorr => exact corr_computes h

theorem cov_reader (h : B.OK) :
    ∃ q, q.Reader ∧ covProg B = rlocked q := by
  refine ⟨_, ?_, rfl⟩
  refine (h.sum_read _).reader.rlocked.bind fun v => ?_
  rcases Joint.wrapErr "error retrieving sum" v with e | v
  · exact .ret _
  · exact h.count_read.reader.rlocked.bind fun n => .ret _

theorem corr_reader (h : B.OK) :
    ∃ q, q.Reader ∧ corrProg r B = rlocked q := by
  refine ⟨_, ?_, rfl⟩
  refine (h.sum_read _).reader.rlocked.bind fun v => ?_
  rcases Joint.wrapErr "error retrieving sum for {1, 1}" v with e | v
  · exact .ret _
  · refine (h.sum_read _).reader.rlocked.bind fun v => ?_
    rcases Joint.wrapErr "error retrieving sum for {2, 0}" v with e | v
    · exact .ret _
    · refine (h.sum_read _).reader.rlocked.bind fun v => ?_
      rcases Joint.wrapErr "error retrieving sum for {0, 2}" v with e | v
      · exact .ret _
      · exact .ret _

theorem jointValue_crit (h : B.OK) (kind : Joint.Kind K) : (jointValueProg r B kind).Crit := by
  cases kind with
  | cov => obtain ⟨q, hq, e⟩ := cov_reader h; exact (show (covProg B).Crit from e ▸ hq.crit)
  | corr => obtain ⟨q, hq, e⟩ := corr_reader (r := r) h; exact (show (corrProg r B).Crit from e ▸ hq.crit)
  | ewmCov => exact (h.sum_read _).reader.crit.map _
  | ewmCorr => obtain ⟨q, hq, e⟩ := corr_reader (r := r) h; exact (show (corrProg r B).Crit from e ▸ hq.crit)

theorem pairPush_crit (h : B.OK) (kind : Joint.Kind K) (xs : List K) : (pairPush B kind xs).Crit := by
  unfold pairPush
  by_cases hx : xs.length ≠ 2
  · rw [if_pos hx]; exact .ret _
  · rw [if_neg hx]; exact (Crit.locked (h.push_plain xs)).map _

theorem jointObj_crit (h : B.OK) (kind : Joint.Kind K) (c : Call (List K) Unit) : (jointObj r B kind c).Crit := by
  cases c with
  | push x => exact (pairPush_crit h kind x).map _
  | get v => exact (jointValue_crit h kind).map _
  | clear => exact (Crit.locked h.clear_plain).map _

theorem jointObj_run (h : B.OK) (kind : Joint.Kind K) (c : Call (List K) Unit) (s : Joint.Core K) :
    (jointObj r B kind c).run s = (pairMethods r kind).sem c s := by
  cases c with
  | push x =>
    refine (run_map ..).trans ?_
    simp only [Methods.sem, pairMethods, Joint.Metric.push, pairPush]
    by_cases hx : x.length ≠ 2
    · rw [if_pos hx, if_pos hx]; rfl
    · rw [if_neg hx, if_neg hx, run_bind, jointPush, run_locked, h.push_run]
      rcases Joint.push s x with ⟨c, e⟩ | _ | _
      · cases e <;> rfl
      · rfl
      · rfl
  | get v => exact (run_map ..).trans (by rw [jointValue_computes h kind s]; rfl)
  | clear => exact (run_map ..).trans (by rw [jointClear, run_locked, h.clear_run]; rfl)

end joint

/-! ## quantile -/

section quantile
variable {F : Type} [GoOrd F] {O : FOps F} {st : Quant.Statistic F} {B : Body (Quant.Quantile st) F F (Except Err F)}

theorem quantileValue_crit (h : B.OK (quantileMethods O st)) (v : F) : (quantileValue O B v).Crit := by
  unfold quantileValue
  split
  · exact .ret _
  · exact (h.get_read v).reader.crit

theorem quantileValue_flat (h : B.OK (quantileMethods O st)) (v : F) : (quantileValue O B v).Flat := by
  unfold quantileValue
  split
  · exact .inl (.ret _)
  · exact .rlocked (h.get_read v).plain

theorem quantileValue_reader (h : B.OK (quantileMethods O st)) (v : F) : (quantileValue O B v).Reader := by
  unfold quantileValue
  split
  · exact .ret _
  · exact (h.get_read v).reader.rlocked

theorem quantileValue_run (h : B.OK (quantileMethods O st)) (v : F) (s : Quant.Quantile st) :
    (quantileValue O B v).run s = (do let x ← s.value O v; pure (s, x)) := by
  unfold quantileValue
  split
  next hv => unfold Quant.Quantile.value; rw [if_pos hv]; rfl
  next hv => rw [run_rlocked, h.get_run]; rfl

theorem quantileObj_crit (h : B.OK (quantileMethods O st)) (c : Call F F) : (quantileObj O B c).Crit := by
  cases c with
  | push x => exact (Crit.locked (h.push_plain x)).map _
  | get v => exact (quantileValue_crit h v).map _
  | clear => exact (Crit.locked h.clear_plain).map _

theorem quantileObj_flat (h : B.OK (quantileMethods O st)) (c : Call F F) : (quantileObj O B c).Flat := by
  cases c with
  | push x => exact (Flat.locked (h.push_plain x)).map _
  | get v => exact (quantileValue_flat h v).map _
  | clear => exact (Flat.locked h.clear_plain).map _

theorem quantileObj_run (h : B.OK (quantileMethods O st)) (c : Call F F) (s : Quant.Quantile st) :
    (quantileObj O B c).run s = (quantileMethods O st).sem c s := by
  cases c with
  | push x => exact (run_map ..).trans (by rw [run_locked, h.push_run]; rfl)
  | get v =>
    refine (run_map ..).trans ?_
    rw [quantileValue_run h]
    show _ = (do let r ← s.value O v; pure (s, Out.got r))
    rcases s.value O v with r | _ | _ <;> rfl
  | clear => exact (run_map ..).trans (by rw [run_locked, h.clear_run]; rfl)

theorem medianObj_crit (h : B.OK (quantileMethods O st)) (c : Call F Unit) : (medianObj O B c).Crit := by
  cases c with
  | push x => exact (Crit.locked (h.push_plain x)).map _
  | get v => exact (quantileValue_crit h _).map _
  | clear => exact (Crit.locked h.clear_plain).map _

theorem medianObj_flat (h : B.OK (quantileMethods O st)) (c : Call F Unit) : (medianObj O B c).Flat := by
  cases c with
  | push x => exact (Flat.locked (h.push_plain x)).map _
  | get v => exact (quantileValue_flat h _).map _
  | clear => exact (Flat.locked h.clear_plain).map _

theorem medianObj_run (h : B.OK (quantileMethods O st)) (c : Call F Unit) (s : Quant.Quantile st) :
    (medianObj O B c).run s = (medianMethods O st).sem c s := by
  cases c with
  | push x => exact (run_map ..).trans (by rw [run_locked, h.push_run]; rfl)
  | get v =>
    refine (run_map ..).trans ?_
    rw [quantileValue_run h]
    show _ = (do let r ← s.medianValue O; pure (s, Out.got r))
    unfold Quant.Quantile.medianValue
    rcases s.value O (O.div (O.ofInt 1) (O.ofInt 2)) with r | _ | _ <;> rfl
  | clear => exact (run_map ..).trans (by rw [run_locked, h.clear_run]; rfl)

theorem iqr_reader (h : B.OK (quantileMethods O st)) :
    ∃ q, q.Reader ∧ iqrProg O B = rlocked q := by
  refine ⟨_, ?_, rfl⟩
  refine (quantileValue_reader h _).bind fun v => ?_
  cases v with
  | error e => exact .ret _
  | ok v =>
    refine (quantileValue_reader h _).bind fun v => ?_
    cases v with
    | error e => exact .ret _
    | ok v => exact .ret _

theorem iqrProg_run (h : B.OK (quantileMethods O st)) (s : Quant.Quantile st) :
    (iqrProg O B).run s = (do let x ← s.iqrValue O; pure (s, x)) := by
  unfold iqrProg Quant.Quantile.iqrValue
  rw [run_rlocked, run_bind, quantileValue_run h]
  rcases s.value O (O.div (O.ofInt 1) (O.ofInt 4)) with r | _ | _
  · simp only [Go.val_bind, Go.pure_eq]
    cases r with
    | error e => rfl
    | ok q25 =>
      simp only []
      rw [run_bind, quantileValue_run h]
      rcases s.value O (O.div (O.ofInt 3) (O.ofInt 4)) with r | _ | _
      · cases r <;> rfl
      · rfl
      · rfl
  · rfl
  · rfl

theorem iqrObj_crit (h : B.OK (quantileMethods O st)) (c : Call F Unit) : (iqrObj O B c).Crit := by
  cases c with
  | push x => exact (Crit.locked (h.push_plain x)).map _
  | get v =>
    obtain ⟨q, hq, e⟩ := iqr_reader h
    exact (show (iqrProg O B).Crit from e ▸ hq.crit).map _
  | clear => exact (Crit.locked h.clear_plain).map _

theorem iqrObj_run (h : B.OK (quantileMethods O st)) (c : Call F Unit) (s : Quant.Quantile st) :
    (iqrObj O B c).run s = (iqrMethods O st).sem c s := by
  cases c with
  | push x => exact (run_map ..).trans (by rw [run_locked, h.push_run]; rfl)
  | get v =>
    refine (run_map ..).trans ?_
    rw [iqrProg_run h]
    show _ = (do let r ← s.iqrValue O; pure (s, Out.got r))
    rcases s.iqrValue O with r | _ | _ <;> rfl
  | clear => exact (run_map ..).trans (by rw [run_locked, h.clear_run]; rfl)

end quantile

end Verif.Locks
