import Verif.Proofs.Failed
import Verif.Proofs.Decide
import Verif.Props.JointFP
import Verif.Props.Rounded
import Verif.Props.Aggregate

/-! # C90: a call that returns an error has no effect

`AllOrNothing step s` (Spec/Failed.lean): after any history starting in `s`, an operation that returns an error leaves the state unchanged.
`NeverFails step s`: no operation returns an error at all. -/

set_option linter.unusedSectionVars false

namespace Verif.Props
open Verif Verif.Spec

/-- Moment cores: no `Push` returns an error, in any arithmetic. -/
theorem C90_moment {F : Type} [GoOrd F] (A : FP.Arith F) {cfg : Moment.Config F} {c : Moment.Core F} (hn : FP.newCore A cfg = .ok c) :
    NeverFails (FP.step A) c := by
  refine NeverFails.of_inv (I := fun c => c.queue.disposed = false) ?_ (FP.step_open A)
  obtain ⟨w, hw, rfl, -⟩ := FP.newCore_ok A hn
  rfl

/-- The metrics of package moment: before `Init` every `Push` fails and changes nothing, after it none fails. -/
theorem C90_moment_metric {K : Type} [Field K] [LinearOrder K] (k : Moment.Kind K) :
    AllOrNothing Moment.Metric.step (Moment.Metric.new k) ∧
    ∀ m, (Moment.Metric.new k).init = (m, none) → NeverFails Moment.Metric.step m := by
  constructor
  · refine AllOrNothing.of_inv (I := fun m => m.core = none) rfl ?_
    rintro s o s' e h hr
    cases o with
    | push x => simp only [Moment.Metric.step, Moment.Metric.push, h] at hr; cases hr; exact ⟨h, fun _ => rfl⟩
    | clear => simp only [Moment.Metric.step, Moment.Metric.clear, h] at hr; cases hr; exact ⟨h, fun _ => rfl⟩
  · intro m hm
    refine NeverFails.of_inv (I := fun m => ∃ c, m.core = some c ∧ c.queue.disposed = false) ?_ ?_
    · unfold Moment.Metric.init at hm
      rcases e : Moment.newCore (Moment.Metric.config (Moment.Metric.new k).kind) with x | c <;> rw [e] at hm <;> cases hm
      refine ⟨c, rfl, ?_⟩
      rw [← (C64_exact _).1] at e
      obtain ⟨w, hw, rfl, -⟩ := FP.newCore_ok _ e
      rfl
    · rintro s o s' e ⟨c, h, hq⟩ hr
      cases o with
      | push x =>
        simp only [Moment.Metric.step, Moment.Metric.push, h] at hr
        rcases e1 : Moment.push c x with ⟨c', y⟩ | _ | _ <;> rw [e1] at hr
        · rw [← FP.push_exact] at e1
          obtain ⟨rfl, h2⟩ := FP.push_open _ hq e1
          cases hr
          exact ⟨rfl, _, rfl, h2⟩
        · cases hr
        · cases hr
      | clear =>
        simp only [Moment.Metric.step, Moment.Metric.clear, h] at hr
        cases hr
        exact ⟨rfl, _, rfl, rfl⟩

/-- `Quantile`, `Median`, `IQR` over any container: no `Push` returns an error. -/
theorem C90_quantile {F : Type} (st : Quant.Statistic F) (w i : Int) : NeverFails Quant.Quantile.step (Quant.Quantile.fresh st w i) :=
  NeverFails.of_inv (I := fun q => q.queue.disposed = false) rfl Quant.Quantile.step_open

/-- `HeapMedian`, any comparison. -/
theorem C90_heap_median {F : Type} [GoOrd F] (z : F) (w : Int) : NeverFails HeapMedian.step (HeapMedian.fresh z w) :=
  NeverFails.of_inv (I := fun q => q.queue.disposed = false) rfl HeapMedian.step_open

/-- `Max` and `Min`, any comparison. -/
theorem C90_minmax {F : Type} [GoOrd F] (O : MinMax.Ext F) (w : Int) :
    NeverFails (MinMax.Max.step O) (MinMax.Max.fresh O w) ∧ NeverFails (MinMax.Min.step O) (MinMax.Min.fresh O w) :=
  ⟨NeverFails.of_inv (I := fun q => q.queue.disposed = false) rfl (MinMax.Max.step_open O),
    NeverFails.of_inv (I := fun q => q.queue.disposed = false) rfl (MinMax.Min.step_open O)⟩

/-- Joint cores in any arithmetic, exponents at most 65 (beyond, every accepted `Push` panics, C72). -/
theorem C90_joint {F : Type} [GoOrd F] (A : FP.Arith F) {cfg : Joint.Config F} {c : Joint.Core F} (hn : JFP.newCore A cfg = .val (.ok c))
    (hs : ∀ t ∈ cfg.sums.getD [], ∀ k ∈ t, k ≤ 65) : AllOrNothing (JFP.step A) c := by
  intro before c' es hr o c'' e he
  cases o with
  | clear => cases he
  | push xs =>
    obtain ⟨n, w, hw, hv, -⟩ := JFP.newCore_ok A hn
    obtain ⟨c1, e1, B, -⟩ := JFP.core_track A hn hs hw hv (JFP.track_true A n w cfg.decay _) before
    obtain ⟨c2, e2, -⟩ := JFP.core_track A hn hs hw hv (JFP.track_true A n w cfg.decay _) (before ++ [.push xs])
    have h1 : JFP.run A c before = .val (c', es) := hr
    rw [h1] at e1
    cases e1
    by_cases hx : xs.length = n
    · rw [JFP.run, Go.runOps_append, hr] at e2
      simp only [Go.runOps, logged, he, Go.val_bind, Option.toList, Go.pure_eq, Go.val.injEq, Prod.mk.injEq] at e2
      have := congrArg List.length e2.2
      simp [JFP.arityErrors, okArity, hx] at this
    · simp only [JFP.step, JFP.push] at he
      rw [if_pos (by rw [B.mlen]; exact hx)] at he
      cases he
      rfl

/-- `Cov`, `Corr`, `EWMCov`, `EWMCorr` on any core with exponents at most 65, also one with other than two variables (`SetCore`). -/
theorem C90_pair {K : Type} [Field K] [LinearOrder K] (k : Joint.Kind K) {cfg : Joint.Config K} {c : Joint.Core K}
    (hn : Joint.newCore cfg = .val (.ok c)) (hs : ∀ t ∈ cfg.sums.getD [], ∀ k ∈ t, k ≤ 65) :
    AllOrNothing Joint.Metric.step ⟨k, some c⟩ ∧ AllOrNothing Joint.Metric.step ⟨k, none⟩ := by
  constructor
  · have key := C90_joint (FP.Arith.exact K) (by rw [JFP.newCore_exact]; exact hn) hs
    rw [JFP.step_exact] at key
    refine AllOrNothing.of_inv (I := fun m => ∃ ops c' es, m.core = some c' ∧ Go.runOps (logged Joint.step) (c, []) ops = .val (c', es))
      ⟨[], c, [], rfl, rfl⟩ ?_
    rintro s o s' e ⟨ops, c', es, h, hr⟩ he
    have next : ∀ o c'' e, Joint.step c' o = .val (c'', e) →
        Go.runOps (logged Joint.step) (c, []) (ops ++ [o]) = .val (c'', es ++ e.toList) := by
      intro o c'' e h
      rw [Go.runOps_append, hr]
      simp only [Go.runOps, logged, h, Go.val_bind, Go.pure_eq]
    cases o with
    | push xs =>
      simp only [Joint.Metric.step, Joint.Metric.push, h] at he
      split_ifs at he with hx
      · cases he
        exact ⟨⟨ops, c', es, h, hr⟩, fun _ => rfl⟩
      · rcases e1 : Joint.push c' xs with ⟨c'', y⟩ | _ | _ <;> rw [e1] at he
        · cases y with
          | none =>
            cases he
            exact ⟨⟨_, c'', _, rfl, next (.push xs) c'' none e1⟩, fun hc => absurd rfl hc⟩
          | some y =>
            cases he
            refine ⟨⟨_, c'', _, rfl, next (.push xs) c'' (some y) e1⟩, fun _ => ?_⟩
            obtain rfl := key ops c' es hr (.push xs) c'' y e1
            cases s
            simp only at h
            rw [h]
        · cases he
        · cases he
    | clear =>
      simp only [Joint.Metric.step, Joint.Metric.clear, h] at he
      cases he
      exact ⟨⟨_, _, _, rfl, next .clear _ none rfl⟩, fun hc => absurd rfl hc⟩
  · refine AllOrNothing.of_inv (I := fun m => m.core = none) rfl ?_
    rintro s o s' e h hr
    cases o with
    | push x => simp only [Joint.Metric.step, Joint.Metric.push, h] at hr; cases hr; exact ⟨h, fun _ => rfl⟩
    | clear => simp only [Joint.Metric.step, Joint.Metric.clear, h] at hr; cases hr; exact ⟨h, fun _ => rfl⟩

/-- `Autocov` and `Autocorr`, partial: with the core that `Init` makes (two variables) no `Push` returns an error; without a core every `Push`
does and changes nothing. -/
theorem C90_auto_partial {K : Type} [Field K] [LinearOrder K] [IsStrictOrderedRing K] (corr : Bool) (lag w : Nat) :
    ∃ a a0 : Joint.Auto K, Joint.Auto.new corr lag w = .ok a ∧ a.init = .val (a0, none) ∧
      AllOrNothing Joint.Auto.step a ∧ NeverFails Joint.Auto.step a0 := by
  obtain ⟨a, a0, h1, h2, h3⟩ := Joint.auto_init (K := K) corr lag w
  refine ⟨a, a0, h1, h2, ?_, ?_⟩
  · refine AllOrNothing.of_inv (I := fun m => m.core = none) ?_ ?_
    · unfold Joint.Auto.new at h1
      split_ifs at h1
      cases h1
      rfl
    rintro s o s' e h hr
    cases o with
    | push x => simp only [Joint.Auto.step, Joint.Auto.push, h] at hr; cases hr; exact ⟨h, fun _ => rfl⟩
    | clear => simp only [Joint.Auto.step, Joint.Auto.clear, h] at hr; cases hr; exact ⟨h, fun _ => rfl⟩
  · have key : ∀ ops, ∃ a', Joint.Auto.run a0 ops = .val (a', []) := by
      intro ops
      cases corr with
      | false =>
        obtain ⟨a', h4, -⟩ := Joint.run_auto (ts := Joint.autoTuples false) Joint.good_cov (fun _ => Joint.noOverlap_cov) h3 ops
        exact ⟨a', h4⟩
      | true =>
        obtain ⟨a', h4, -⟩ := Joint.run_auto (ts := Joint.autoTuples true) Joint.good_corr (fun _ => Joint.noOverlap_corr) h3 ops
        exact ⟨a', h4⟩
    intro before s' es hr
    obtain ⟨a', h4⟩ := key before
    have h5 : Joint.Auto.run a0 before = .val (s', es) := hr
    rw [h4] at h5
    cases h5
    refine ⟨rfl, fun o s'' e he => ?_⟩
    obtain ⟨a'', h6⟩ := key (before ++ [o])
    rw [Joint.Auto.run, Go.runOps_append, hr] at h6
    simp [Go.runOps, logged, he] at h6

/-- The core of the counterexample: three variables. -/
def core3 : Joint.Core ℚ := match Joint.newCore (⟨some [[1, 1, 0]], some 0, none, none⟩ : Joint.Config ℚ) with
  | .val (.ok c) => c
  | _ => ⟨[], [], fun _ => none, fun _ => none, 0, 0, none, Ring.new 0⟩

/-- The errors returned by the pushes of a run. -/
def autoLog (a : Joint.Auto ℚ) : List ℚ → List (Option Bool)
  | [] => []
  | x :: xs => match Joint.Auto.push a x with
    | .val (a', e) => some e.isSome :: autoLog a' xs
    | _ => [none]

/-- Refuted for `Autocov` and `Autocorr` with a core set by the user that has other than two variables: a `Push` that fails loses a value of the
lag queue. With lag 1 the second `Push` fails; had it had no effect, the third would fail as well, but it succeeds, and the fourth fails
again. -/
theorem C90_auto_refuted : ∃ c : Joint.Core ℚ, Joint.newCore ⟨some [[1, 1, 0]], some 0, none, none⟩ = .val (.ok c) ∧ ∀ corr,
    ¬ AllOrNothing Joint.Auto.step ⟨corr, 1, 0, Ring.new 1, some c⟩ ∧
    autoLog ⟨corr, 1, 0, Ring.new 1, some c⟩ [1, 2, 3, 4] = [some false, some true, some false, some true] := by
  refine ⟨core3, rfl, fun corr => ⟨fun h => ?_, ?_⟩⟩
  · have := h [.push 1] ⟨corr, 1, 0, ⟨1, [1], false⟩, some core3⟩ [] rfl (.push 2) ⟨corr, 1, 0, ⟨1, [], false⟩, some core3⟩ _ rfl
    have := congrArg (fun a => a.queue.items) this
    simp at this
  · cases corr <;> decide +kernel

/-- Refuted for aggregates: `Push` returns the error of one metric although the other metric has consumed the value. -/
theorem C90_aggregate_refuted : ∃ c' e, Aggregate.Pushed exMetrics exCells 5 c' (some e) ∧ c' 0 ≠ exCells 0 := by
  obtain ⟨c', e, h⟩ := (C56_push_returns exMetrics exCells 5 (by
    intro i m hm
    match i, hm with
    | 0, hm => cases hm; exact ⟨_, rfl⟩
    | 1, hm => cases hm; exact ⟨_, rfl⟩)).1
  have hf : failures exMetrics exCells 5 = ["Core is not set"] := by decide +kernel
  rcases e with _ | e
  · have := (C57_push _ _ _ _ _ h).1.1 rfl
    rw [hf] at this
    cases this
  · refine ⟨c', e, h, fun hc => ?_⟩
    obtain ⟨err, he⟩ := C56_push_delivers _ _ _ _ _ h 0 (momentMetric "a") rfl
    rw [hc] at he
    have h1 : (match (momentMetric "a").push (exCells 0) 5 with
      | .val (m, _) => m.core.map (·.count)
      | _ => none) = some 1 := by decide +kernel
    have h2 : (exCells 0).core.map (·.count) = some 0 := by decide +kernel
    rw [he] at h1
    simp only [h2] at h1
    cases h1

/-- `C90_pair` for a `Cov` whose core has three variables: every `Push` fails, with two values at the core and with three at the metric. -/
example : Joint.newCore ⟨some [[1, 1, 0]], some 0, none, none⟩ = .val (.ok core3) ∧
    (Joint.Metric.run ⟨.cov 0, some core3⟩ [.push [1, 2], .push [1, 2, 3]]).bind (fun r => .val r.2) =
      .val ["error pushing to core: tried to push a wrong number of values", "Cov expected 2 arguments"] := ⟨rfl, by decide +kernel⟩

/-- A windowed core in binary64 that has been used, for `C90_moment`. -/
example : ∃ c, FP.newCore FP.Arith.b64 ⟨some [2], some 2, none⟩ = .ok c ∧
    fpObs (FP.run FP.Arith.b64 c [.push 1, .push 3, .push 5]) = some ((.ok 4, .ok 2), (.error "not a tracked power sum", 2), []) :=
  ⟨_, rfl, by decide +kernel⟩

end Verif.Props
