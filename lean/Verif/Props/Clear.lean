import Verif.Proofs.ClearMinMax
import Verif.Proofs.ClearHeap
import Verif.Proofs.ClearQuantile
import Verif.Proofs.JointAlias
import Verif.Proofs.Moment
import Verif.Model.MomentMetric
import Verif.Model.JointMetric
import Verif.Proofs.Decide

/-! # C36: `Clear` is equivalent to a fresh instance

`Resets step .clear s same` (Spec/Clear.lean): after any history that returns, `Clear` followed by any history gives the errors, panics and
states (up to `same`) of that second history on the new instance `s`. -/

set_option linter.unusedSectionVars false

namespace Verif.Props
open Verif Verif.Spec

/-! ## Package moment -/

section moment
variable {K : Type} [Field K] [GoOrd K]
open Moment

/-- A core, whatever its configuration. -/
theorem C36_moment_core (cfg : Moment.Config K) (c : Moment.Core K) (h : Moment.newCore cfg = .ok c) :
    Resets Moment.step (.clear) c Eq := by
  unfold Moment.newCore at h
  split at h
  · cases h
  · cases h
    refine resets_of_eq ?_
    intro before s' es h
    show Go.val (Moment.clear s', none) = _
    rw [Moment.clear_mk (Moment.run_frame h)]

/-- A windowed core, filled past its window, cleared and refilled. -/
example : ∃ c : Moment.Core ℚ, Moment.newCore ⟨some [2], some 2, none⟩ = .ok c ∧
    ∃ s es, Moment.run c [.push 1, .push 5, .push 2, .clear, .push 3] = .val (s, es) ∧ s.count = 1 ∧ Moment.mean s = .ok 3 :=
  ⟨_, rfl, _, _, rfl, by decide +kernel, by decide +kernel⟩

theorem metric_reach {m0 m : Moment.Metric K} {c0 : Moment.Core K} {ops : List (MOp K)} {es : List Err} (h0 : m0.core = some c0)
    (h : m0.run ops = .val (m, es)) : m.kind = m0.kind ∧ ∃ c, m.core = some c ∧ Reach Moment.step c0 c := by
  refine logged_inv (P := fun m : Moment.Metric K => m.kind = m0.kind ∧ ∃ c, m.core = some c ∧ Reach Moment.step c0 c) ?_ ops _ _ _ _
    ⟨rfl, c0, h0, Reach.refl c0⟩ h
  rintro ⟨k, core⟩ a s' o ⟨hk, c, hc, hr⟩ e
  simp only at hc hk
  subst hc
  cases a with
  | clear =>
    cases e
    exact ⟨hk, _, rfl, hr.snoc (a := .clear) rfl⟩
  | push x =>
    simp only [Metric.step, Metric.push] at e
    rcases e1 : Moment.push c x with ⟨c', _ | e2⟩ | _ | _ <;> rw [e1] at e <;> cases e
    · exact ⟨hk, c', rfl, hr.snoc (a := .push x) e1⟩
    · exact ⟨hk, c', rfl, hr.snoc (a := .push x) e1⟩

/-- Mean, Moment, Std, Skewness, Kurtosis, EWMA, EWMMoment, EWMStd, after a successful `Init`. -/
theorem C36_moment_metric (k : Moment.Kind K) (m : Moment.Metric K) (h : (Metric.new k).init = (m, none)) :
    Resets Metric.step .clear m Eq := by
  unfold Metric.init at h
  rcases e : Moment.newCore (Metric.config (Metric.new k).kind) with e1 | c <;> rw [e] at h
  · cases h
  · cases h
    refine resets_of_eq ?_
    intro before s' es h
    obtain ⟨h1, c', h2, ops, es', hr⟩ := metric_reach rfl h
    obtain ⟨k', core⟩ := s'
    simp only at h1 h2
    subst h1 h2
    unfold Moment.newCore at e
    split at e
    · cases e
    · cases e
      show Go.val (Metric.clear _, none) = _
      simp only [Metric.clear]
      rw [Moment.clear_mk (Moment.run_frame hr)]
      rfl

example : ((Metric.new (.std 2) : Moment.Metric ℚ).init).2 = none ∧ ((Metric.new (.ewma (1/2)) : Moment.Metric ℚ).init).2 = none := by
  decide +kernel

/-- Before `Init`, `Clear` does nothing. -/
theorem C36_moment_uninitialised (k : Moment.Kind K) : Resets Metric.step .clear (Metric.new k : Moment.Metric K) Eq := by
  refine resets_of_eq ?_
  intro before s' es h
  have : s' = Metric.new k := by
    refine logged_inv (P := fun m : Moment.Metric K => m = Metric.new k) ?_ before _ _ _ _ rfl h
    rintro s a s' o rfl e
    cases a <;> cases e <;> rfl
  subst this
  rfl

end moment

/-! ## Package joint -/

section joint
variable {K : Type} [Field K] [GoOrd K]
open Joint

/-- A joint core, whatever its configuration. -/
theorem C36_joint_core (cfg : Joint.Config K) (c : Joint.Core K) (h : Joint.newCore cfg = .val (.ok c)) :
    Resets Joint.step .clear c Eq := by
  refine resets_of_eq ?_
  intro before s' es hr
  unfold Joint.newCore at h
  split at h
  · cases h
  · rcases e : Joint.mk (Joint.setDefaults cfg) with c1 | _ | _ <;> rw [e] at h <;> cases h
    show Go.val (Joint.clear s', none) = _
    rw [Joint.clear_run e hr]

example : ∃ c : Joint.Core ℚ, Joint.newCore ⟨some [[1, 1], [2, 0]], some 3, none, none⟩ = .val (.ok c) := ⟨_, rfl⟩

theorem joint_clear_reach {cfg : Joint.Config K} {c c' : Joint.Core K} (h : Joint.newCore cfg = .val (.ok c)) (hr : Reach Joint.step c c') :
    Joint.clear c' = c := by
  obtain ⟨ops, es, hr⟩ := hr
  unfold Joint.newCore at h
  split at h
  · cases h
  · rcases e : Joint.mk (Joint.setDefaults cfg) with c1 | _ | _ <;> rw [e] at h <;> cases h
    exact Joint.clear_run e hr

/-- Cov, Corr, EWMCov, EWMCorr, after a successful `Init`; rejected pushes included. -/
theorem C36_joint_metric (k : Joint.Kind K) (m : Joint.Metric K) (h : (Joint.Metric.new k).init = .val (m, none)) :
    Resets Joint.Metric.step .clear m Eq := by
  unfold Joint.Metric.init at h
  rcases e : Joint.newCore (Joint.Metric.new k : Joint.Metric K).kind.config with (e1 | c) | _ | _ <;> rw [e] at h <;> cases h
  refine resets_of_eq ?_
  intro before s' es h
  have : s'.kind = k ∧ ∃ c', s'.core = some c' ∧ Reach Joint.step c c' := by
    refine logged_inv (P := fun m : Joint.Metric K => m.kind = k ∧ ∃ c', m.core = some c' ∧ Reach Joint.step c c') ?_ before _ _ _ _
      ⟨rfl, c, rfl, Reach.refl c⟩ h
    rintro ⟨k1, core⟩ a s' o ⟨hk, c1, hc, hr⟩ e
    simp only at hc hk
    subst hc
    cases a with
    | clear =>
      cases e
      exact ⟨hk, _, rfl, hr.snoc (a := .clear) rfl⟩
    | push x =>
      simp only [Joint.Metric.step, Joint.Metric.push] at e
      split at e
      · cases e; exact ⟨hk, c1, rfl, hr⟩
      · rcases e1 : Joint.push c1 x with ⟨c', _ | e2⟩ | _ | _ <;> rw [e1] at e <;> cases e
        · exact ⟨hk, c', rfl, hr.snoc (a := .push x) e1⟩
        · exact ⟨hk, c', rfl, hr.snoc (a := .push x) e1⟩
  obtain ⟨hk, c', hc, hr⟩ := this
  obtain ⟨k', core⟩ := s'
  simp only at hk hc
  subst hk hc
  show Go.val (Joint.Metric.clear _, none) = _
  simp only [Joint.Metric.clear]
  rw [joint_clear_reach e hr]
  rfl

example : ∃ m, (Joint.Metric.new (.corr 3) : Joint.Metric ℚ).init = .val (m, none) := ⟨_, rfl⟩

/-- Autocov and Autocorr, after a successful `Init`: the lag queue is emptied too. -/
theorem C36_auto (corr : Bool) (lag window : Int) (a0 a : Joint.Auto K) (h0 : Joint.Auto.new corr lag window = .ok a0)
    (h : a0.init = .val (a, none)) : Resets Joint.Auto.step .clear a Eq := by
  have hq : a0 = ⟨corr, lag, window, Ring.new lag.toNat, none⟩ := by
    unfold Joint.Auto.new at h0
    split at h0
    · cases h0
    · cases h0; rfl
  subst hq
  unfold Joint.Auto.init at h
  rcases e : Joint.newCore (Joint.Auto.kind (⟨corr, lag, window, Ring.new lag.toNat, none⟩ : Joint.Auto K)).config with (e1 | c) | _ | _ <;>
    rw [e] at h <;> cases h
  refine resets_of_eq ?_
  intro before s' es h
  have : s'.corr = corr ∧ s'.lag = lag ∧ s'.window = window ∧ ∃ c', s'.core = some c' ∧ Reach Joint.step c c' := by
    refine logged_inv (P := fun m : Joint.Auto K => m.corr = corr ∧ m.lag = lag ∧ m.window = window ∧
      ∃ c', m.core = some c' ∧ Reach Joint.step c c') ?_ before _ _ _ _ ⟨rfl, rfl, rfl, c, rfl, Reach.refl c⟩ h
    rintro ⟨co, la, wi, qu, core⟩ a s' o ⟨h1, h2, h3, c1, hc, hr⟩ e
    simp only at hc h1 h2 h3
    subst hc h1 h2 h3
    cases a with
    | clear =>
      cases e
      exact ⟨rfl, rfl, rfl, _, rfl, hr.snoc (a := .clear) rfl⟩
    | push x =>
      have hput : ∀ (q : Ring K) (c2 : Joint.Core K), Reach Joint.step c c2 →
          Joint.Auto.put ⟨co, la, wi, q, some c2⟩ x = .val (s', o) →
          s'.corr = co ∧ s'.lag = la ∧ s'.window = wi ∧ ∃ c', s'.core = some c' ∧ Reach Joint.step c c' := by
        intro q c2 hr h
        unfold Joint.Auto.put at h
        simp only at h
        rcases e1 : q.put x with (e2 | q') | _ | _ <;> rw [e1] at h <;> cases h
        · exact ⟨rfl, rfl, rfl, c2, rfl, hr⟩
        · exact ⟨rfl, rfl, rfl, c2, rfl, hr⟩
      simp only [Joint.Auto.step, Joint.Auto.push] at e
      split at e
      · rcases e1 : Joint.push c1 [x, x] with ⟨c', _ | e2⟩ | _ | _ <;> rw [e1] at e <;> cases e
        · exact ⟨rfl, rfl, rfl, c', rfl, hr.snoc (a := .push [x, x]) e1⟩
        · exact ⟨rfl, rfl, rfl, c', rfl, hr.snoc (a := .push [x, x]) e1⟩
      · split at e
        · unfold Joint.Auto.pair at e
          simp only at e
          rcases e1 : qu.get with (e2 | ⟨t, q⟩) | _ | _ <;> rw [e1] at e
          · cases e; exact ⟨rfl, rfl, rfl, c1, rfl, hr⟩
          · simp only at e
            rcases e3 : Joint.push c1 [x, t] with ⟨c', _ | e2⟩ | _ | _ <;> rw [e3] at e
            · exact hput q c' (hr.snoc (a := .push [x, t]) e3) e
            · cases e; exact ⟨rfl, rfl, rfl, c', rfl, hr.snoc (a := .push [x, t]) e3⟩
            · cases e
            · cases e
          · cases e
          · cases e
        · exact hput qu c1 hr e
  obtain ⟨h1, h2, h3, c', hc, hr⟩ := this
  obtain ⟨co, la, wi, qu, core⟩ := s'
  simp only at h1 h2 h3 hc
  subst h1 h2 h3 hc
  show Go.val (Joint.Auto.clear _, none) = _
  simp only [Joint.Auto.clear]
  rw [joint_clear_reach e hr]

example : ∃ a0 a, Joint.Auto.new true 2 5 = .ok a0 ∧ (a0 : Joint.Auto ℚ).init = .val (a, none) := ⟨_, _, rfl, rfl⟩

end joint

/-! ## Packages minmax and quantile -/

section rest
variable {F : Type} [GoOrd F]

/-- Max, windowed or global: every later `Value` is the one of a new instance. -/
theorem C36_max (O : MinMax.Ext F) (w : Int) (s : MinMax.Max.St F) (h : MinMax.Max.new O w = .ok s) :
    Resets (MinMax.Max.step O) .clear s (fun a b => MinMax.Max.value a = MinMax.Max.value b) := by
  unfold MinMax.Max.new at h
  split at h
  · cases h
  · cases h
    exact resets_of_sim MinMax.Max.Same (MinMax.Max.step_same O) (MinMax.Max.clear_same O w) (fun a b => MinMax.Max.value_same)

/-- Window 2: the old maximum 9 is forgotten. -/
example : ∃ s es, MinMax.Max.run ⟨-100, 100, max, min⟩ (MinMax.Max.fresh (F := Int) ⟨-100, 100, max, min⟩ 2) [.push 9, .push 1, .clear, .push 3] =
    .val (s, es) ∧ MinMax.Max.value s = .val (.ok 3) := ⟨_, _, rfl, by decide +kernel⟩

/-- Min, windowed or global. -/
theorem C36_min (O : MinMax.Ext F) (w : Int) (s : MinMax.Min.St F) (h : MinMax.Min.new O w = .ok s) :
    Resets (MinMax.Min.step O) .clear s (fun a b => MinMax.Min.value a = MinMax.Min.value b) := by
  unfold MinMax.Min.new at h
  split at h
  · cases h
  · cases h
    exact resets_of_sim MinMax.Min.Same (MinMax.Min.step_same O) (MinMax.Min.clear_same O w) (fun a b => MinMax.Min.value_same)

/-- HeapMedian, in any arithmetic, panics included. -/
theorem C36_heap_median (zero : F) (w : Int) (s : HeapMedian.HM F) (h : HeapMedian.new zero w = .ok s) :
    Resets HeapMedian.step .clear s (fun a b => ∀ O, HeapMedian.value O a = HeapMedian.value O b) := by
  unfold HeapMedian.new at h
  split at h
  · cases h
  · cases h
    refine resets_of_sim (fun a b => ∃ k, HeapMedian.R k a b) ?_ ?_ ?_
    · rintro a b o ⟨k, hk⟩
      exact (HeapMedian.step_sim a b o hk).mono (fun x y hxy => ⟨⟨k, hxy.1⟩, hxy.2⟩)
    · intro before s' es h
      obtain ⟨t, h1, h2⟩ := HeapMedian.clear_fresh zero w before s' es h
      exact ⟨t, h1, _, h2⟩
    · rintro a b ⟨k, hk⟩ O
      exact HeapMedian.value_sim O hk

/-- Window 1: two increasing pushes make the third one panic, but not after `Clear`. -/
example : (∃ s es, HeapMedian.run (HeapMedian.fresh (0 : Int) 1) [.push 1, .push 2, .clear, .push 3] = .val (s, es)) ∧
    HeapMedian.run (HeapMedian.fresh (0 : Int) 1) [.push 1, .push 2, .push 3] = .panic := ⟨⟨_, _, rfl⟩, by rfl⟩

/-- Quantile, Median and IQR over a container whose `Clear` gives back the empty container. -/
theorem C36_quantile (st : Quant.Statistic F) (hst : ∀ s, st.clear s = st.empty) (w i : Int) :
    Resets Quant.Quantile.step .clear (Quant.Quantile.fresh st w i) Eq := by
  refine resets_of_eq ?_
  intro before s' es h
  obtain ⟨h1, h2⟩ := Quant.run_frame h
  obtain ⟨w', i', q, t⟩ := s'
  simp only [Quant.Quantile.fresh] at h1 h2
  subst h1 h2
  simp [Quant.Quantile.step, Quant.Quantile.clear, Quant.Quantile.fresh, hst]

/-- Quantile, Median and IQR over either tree. -/
theorem C36_quantile_trees (w i : Int) :
    Resets Quant.Quantile.step .clear (Quant.Quantile.fresh (Quant.avlStat F) w i) Eq ∧
    Resets Quant.Quantile.step .clear (Quant.Quantile.fresh (Quant.rbStat F) w i) Eq :=
  ⟨C36_quantile _ (fun _ => rfl) w i, C36_quantile _ (fun _ => rfl) w i⟩

/-- The trees themselves. -/
theorem C36_trees (before after : List (OSOp F)) :
    (∀ t, Avl.Tree.run before = .val t → Avl.Tree.run (before ++ .clear :: after) = Avl.Tree.run after) ∧
    (∀ t, Rb.Tree.run before = .val t → Rb.Tree.run (before ++ .clear :: after) = Rb.Tree.run after) := by
  constructor
  · intro t h
    unfold Avl.Tree.run at h ⊢
    rw [Go.runOps_append, h]; rfl
  · intro t h
    unfold Rb.Tree.run at h ⊢
    rw [Go.runOps_append, h]; rfl

end rest

section skip
variable {F : Type} [LinearOrder F] [Nonempty F]
open Skip

/-- The skip list, duplicates included: size, `Select` and `Rank` after `Clear` are those of a new list whose level generator starts where
the old list's generator is. -/
theorem C36_skiplist (M : Nat) (hM : 0 < M) (draws : Nat → Nat → Bool) (before after : List (OSOp F)) :
    ∃ a b, SkipList.run M draws (before ++ .clear :: after) = .val a ∧
      SkipList.run M (fun n => draws (addCount before + n)) after = .val b ∧
      a.size = b.size ∧ (∀ k, a.select k = b.select k) ∧ ∀ x, a.rank x = b.rank x := by
  obtain ⟨s, hs, -⟩ := run_rep hM draws before
  have hk := run_kept M draws before s hs
  obtain ⟨b, hb, hrep⟩ := run_rep hM (fun n => draws (addCount before + n)) after
  have hr := clear_new hk.head hk.pos
  rw [hk.max, hk.draws, hk.drawn] at hr
  obtain ⟨a, ha, r⟩ := GoS.runOps (fun s s' o r => step_sim r o) after _ _ hr b hb
  refine ⟨a, b, ?_, hb, r.length, ?_, ?_⟩
  · unfold SkipList.run at hs ⊢
    rw [Go.runOps_append, hs]
    exact ha
  · intro k
    obtain ⟨-, A, V, hI, -⟩ := hrep
    obtain ⟨v, e, -⟩ := hI.select k
    obtain ⟨v', e', rfl⟩ := select_sim r k v e
    rw [e, e']
  · intro x
    obtain ⟨-, A, V, hI, -⟩ := hrep
    obtain ⟨v, e, -⟩ := hI.rank x
    obtain ⟨v', e', rfl⟩ := rank_sim r x v e
    rw [e, e']

/-- Levels 2, 1 before and 2, 1, 2 after `Clear`; the values 5, 5, 3 with these levels are among the lists that `Select` gets wrong. -/
example : ∃ a, SkipList.run 2 (fun n _ => decide (n % 2 = 0)) [.add (1 : Int), .add 2, .clear, .add 5, .add 5, .add 3] = .val a ∧
    a.select 1 = .val (some 3) ∧ addCount [OSOp.add (1 : Int), .add 2] = 2 := ⟨_, rfl, by decide +kernel, rfl⟩

/-- Quantile, Median and IQR over a skip list, duplicates included, with the same proviso about the level generator. -/
theorem C36_quantile_skiplist (M : Nat) (hM : 0 < M) (draws : Nat → Nat → Bool) (w : Nat) (i : Int) (before : List (MOp F)) :
    ∃ n, ∀ after, ∃ a b,
      (Quant.Quantile.fresh (Quant.skipStat F M draws) w i).run (before ++ .clear :: after) = .val (a, []) ∧
      (Quant.Quantile.fresh (Quant.skipStat F M (fun j => draws (n + j))) w i).run after = .val (b, []) ∧
      ∀ (O : FOps F) x, a.value O x = b.value O x ∧ a.medianValue O = b.medianValue O ∧ a.iqrValue O = b.iqrValue O := by
  obtain ⟨q, hq⟩ := Quant.qrun_total (d := draws) hM w i before
  obtain ⟨n, hk⟩ := Quant.qkept before w i q [] hq
  refine ⟨n, fun after => ?_⟩
  obtain ⟨b, hb⟩ := Quant.qrun_total (d := fun j => draws (n + j)) hM w i after
  obtain ⟨-, hI⟩ := Quant.run_weak (Quant.skipStat_weak hM (fun j => draws (n + j))) w i after hb
  have hr := clear_new hk.head hk.pos
  rw [hk.max, hk.draws, hk.drawn] at hr
  have hf := Quant.run_frame hq
  have hQ : Quant.QR ((q.statistic : Skip.SkipList F).alloc - 1) q.clear (Quant.Quantile.fresh (Quant.skipStat F M (fun j => draws (n + j))) w i) := by
    refine ⟨hf.1, hf.2, ?_, hr⟩
    simp [Quant.Quantile.clear, Quant.Quantile.fresh, hf.1]
  obtain ⟨⟨a, la⟩, ha, r, hl⟩ := Quant.qrun_sim [] after q.clear _ [] [] hQ rfl (b, []) hb
  simp only at r hl
  have hsel : ∀ k, a.sel k = b.sel k := by
    intro k
    obtain ⟨v, e⟩ : ∃ v, (Quant.skipStat F M (fun j => draws (n + j))).select b.statistic k = .val v := by
      obtain ⟨-, A, V, hI', -⟩ := hI.rep
      obtain ⟨v, e, -⟩ := hI'.select k
      exact ⟨v, e⟩
    obtain ⟨v', e', rfl⟩ := select_sim r.stat k v e
    have e2 : (Quant.skipStat F M draws).select a.statistic k = .val v' := e'
    simp only [Quant.Quantile.sel, e, e2]
  have hsize : (Quant.skipStat F M draws).size a.statistic = (Quant.skipStat F M (fun j => draws (n + j))).size b.statistic := r.stat.length
  have hval : ∀ (O : FOps F) x, a.value O x = b.value O x := by
    intro O x
    unfold Quant.Quantile.value
    simp only [hsel, hsize, r.interp]
  refine ⟨a, b, ?_, hb, fun O x => ⟨hval O x, hval O _, ?_⟩⟩
  · unfold Quant.Quantile.run at hq ⊢
    rw [Go.runOps_append, hq]
    simp only [List.append_nil, hl] at ha ⊢
    simp only [Go.runOps, logged, Quant.Quantile.step]
    exact ha
  · unfold Quant.Quantile.iqrValue
    simp only [hval]

end skip

end Verif.Props
