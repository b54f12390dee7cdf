import Verif.Proofs.ConfigAlias
import Verif.Proofs.Decide
import Mathlib.Tactic.NormNum

/-! # C79: a core is fixed when it is made, and a configuration may be used again

`NewCore` takes a pointer to the caller's configuration, which itself contains pointers. The reference is the model without pointers: a core
made from what the configuration said at the time of the call. -/

namespace Verif.Props
open Verif Verif.Spec
open Verif.Joint (Tuple)

section
variable {K : Type} [Field K] [GoOrd K]

/-! ## Package `moment` -/

open Moment.Refs in
/-- Some keys are only ever written to maps of the client's own: never through a configuration that `NewCore` has given the default map. -/
def Apart : World K → List (Op K) → Prop
  | _, [] => True
  | s, op :: ops => (∀ a k, op = .setKey a k → (s.mem.cfgs a).sums ≠ some 0) ∧
      ∀ s' e, wstep s op = .val (s', e) → Apart s' ops

open Moment.Refs in
/-- C79, package `moment`, partial: a core made from a configuration answers, after any history of other cores being made and used and of
configurations, windows and maps being rewritten, as the core made from what the configuration said at the call does after the calls made to
it alone — provided nobody writes to the `float64` its `Decay` points to. Missing: that proviso (see `C79_moment_refuted`), and the default
map must not have been written to before. -/
theorem C79_moment_partial {s s' : World K} (h0 : s.mem.maps 0 = []) {a : Nat} {c : Moment.Core K}
    (hn : Moment.newCore (s.mem.read a) = .ok c) {ops : List (Op K)} (hp : ∀ p, (s.mem.cfgs a).decay = some p → ∀ v, Op.setFloat p v ∉ ops)
    {es : List Err} (hr : wrun s (.newCore a :: ops) = .val (s', es)) :
    ∃ c' es', Moment.run c (momentCalls s.cores.length ops) = .val (c', es') ∧
      ∃ r, s'.cores[s.cores.length]? = some r ∧ Moment.count (r.view s'.mem) = Moment.count c' ∧
        Moment.mean (r.view s'.mem) = Moment.mean c' ∧ ∀ k, Moment.sum (r.view s'.mem) k = Moment.sum c' k := by
  unfold wrun at hr
  simp only [Go.runOps, logged, wstep, Go.val_bind, Go.pure_eq] at hr
  have hv : Moment.validate 0 1 ((defaults s.mem a).read a) = none := by
    rw [CfgM.defaults_read h0]
    unfold Moment.newCore at hn
    split at hn
    · cases hn
    · assumption
  have hcm : Moment.mk ((defaults s.mem a).read a) = c := by
    rw [CfgM.defaults_read h0]
    unfold Moment.newCore at hn
    split at hn <;> cases hn
    rfl
  have hnew : newCore s a = (⟨defaults s.mem a, s.cores ++ [⟨c, (s.mem.cfgs a).decay⟩]⟩, none) := by
    unfold newCore
    simp only
    rw [hv, hcm, CfgM.defaults_decay]
  rw [hnew] at hr
  obtain ⟨r', h1, es', h2⟩ := CfgM.wrun_view ops (i := s.cores.length) (r := ⟨c, (s.mem.cfgs a).decay⟩) (by simp) hp hr
  have hview : (⟨c, (s.mem.cfgs a).decay⟩ : RCore K).view (defaults s.mem a) = c := by
    unfold RCore.view
    simp only
    rw [CfgM.defaults_floats]
    rw [← hcm, CfgM.defaults_read h0]
    simp [Moment.mk, Moment.setDefaults, Mem.read]
  simp only at h2
  rw [hview] at h2
  exact ⟨_, _, h2, r', h1, rfl, rfl, fun _ => rfl⟩

open Moment.Refs in
/-- C79, package `moment`, partial: `NewCore` leaves every other configuration alone, and its own says the same to a second `NewCore`. Missing:
the map that a nil `Sums` is replaced by is shared with every other such configuration (see `C79_default_refuted`). -/
theorem C79_moment_reuse_partial {s : World K} (h0 : s.mem.maps 0 = []) (a : Nat) :
    (∀ b, b ≠ a → (newCore s a).1.mem.read b = s.mem.read b) ∧
      Moment.newCore ((newCore s a).1.mem.read a) = Moment.newCore (s.mem.read a) := by
  have hm : (newCore s a).1.mem = defaults s.mem a := by
    unfold newCore
    simp only
    split <;> rfl
  rw [hm]
  refine ⟨fun b hb => CfgM.defaults_other s.mem hb, ?_⟩
  rw [CfgM.defaults_read h0]
  rfl

open Moment.Refs in
/-- C79, package `moment`, partial: as long as no key is written through a configuration that was given the default map, nil `Sums` keep
meaning no sums: the default map stays empty. -/
theorem C79_default_partial {s s' : World K} (h0 : s.mem.maps 0 = []) {ops : List (Op K)} (ha : Apart s ops) {es : List Err}
    (hr : wrun s ops = .val (s', es)) : s'.mem.maps 0 = [] := by
  unfold wrun at hr
  suffices H : ∀ (ops : List (Op K)) (s : World K) (l : List Err), s.mem.maps 0 = [] → Apart s ops → ∀ s' es,
      Go.runOps (logged wstep) (s, l) ops = .val (s', es) → s'.mem.maps 0 = [] from H ops s [] h0 ha s' es hr
  clear hr ha h0
  intro ops
  induction ops with
  | nil =>
    intro s l h0 _ s' es h
    simp only [Go.runOps, Go.val.injEq, Prod.mk.injEq] at h
    obtain ⟨rfl, -⟩ := h
    exact h0
  | cons op ops ih =>
    intro s l h0 ha s' es h
    simp only [Go.runOps, logged] at h
    cases hs : wstep s op with
    | panic => rw [hs] at h; cases h
    | hang => rw [hs] at h; cases h
    | val p =>
      obtain ⟨s1, e1⟩ := p
      rw [hs] at h
      refine ih s1 _ ?_ (ha.2 s1 e1 hs) s' es h
      cases op with
      | setConfig a o => cases hs; exact h0
      | setInt p v => cases hs; exact h0
      | setFloat p v => cases hs; exact h0
      | newCore a =>
        have : (newCore s a) = (s1, e1) := by unfold wstep at hs; exact Go.val.inj hs
        unfold newCore at this
        simp only at this
        split at this <;> cases this <;> simp only [CfgM.defaults_maps, h0]
      | setKey a k =>
        unfold wstep at hs
        simp only at hs
        split at hs <;> cases hs
        rename_i m hm
        unfold setKey at hm
        split at hm <;> cases hm
        rename_i q hq
        have hne : q ≠ 0 := fun hz => ha.1 a k rfl (by rw [hq, hz])
        simp only
        rw [Function.update_of_ne (Ne.symm hne)]
        exact h0
      | push i x =>
        unfold wstep call at hs
        simp only at hs
        split at hs
        · cases hs
        · split at hs <;> cases hs
          exact h0
      | clear i =>
        unfold wstep call at hs
        simp only at hs
        split at hs
        · cases hs
        · split at hs <;> cases hs
          exact h0

open Moment.Refs in
/-- C79, the default `Sums` are shared: refuted, for every client. If a nonpositive exponent is written to a configuration after `NewCore` had
filled in its nil `Sums`, then from then on, whatever happens, `NewCore` fails for every configuration whose `Sums` are nil (such as the one
`Mean` asks for), valid or not. -/
theorem C79_default_refuted {s s1 s' : World K} {a : Nat} {k : Int} (hd : (s.mem.cfgs a).sums = some 0) (hk : k ≤ 0) {e1 : List Err}
    (h1 : wrun s [.setKey a k] = .val (s1, e1)) {ops : List (Op K)} {es : List Err} (hr : wrun s1 ops = .val (s', es)) (b : Nat)
    (hb : (s'.mem.cfgs b).sums = none) : (newCore s' b).2 ≠ none := by
  have hin : k ∈ s1.mem.maps 0 := by
    unfold wrun at h1
    simp only [Go.runOps, logged, wstep, setKey, hd, Go.val_bind, Go.pure_eq, Go.val.injEq, Prod.mk.injEq] at h1
    obtain ⟨rfl, -⟩ := h1
    simp only [Function.update_self]
    split_ifs with h
    · exact h
    · simp
  have hin' : k ∈ s'.mem.maps 0 := by
    unfold wrun at hr
    suffices H : ∀ (ops : List (Op K)) (s : World K) (l : List Err), k ∈ s.mem.maps 0 → ∀ s' es,
        Go.runOps (logged wstep) (s, l) ops = .val (s', es) → k ∈ s'.mem.maps 0 from H ops s1 [] hin s' es hr
    clear hr hb
    intro ops
    induction ops with
    | nil =>
      intro s l h0 s' es h
      simp only [Go.runOps, Go.val.injEq, Prod.mk.injEq] at h
      obtain ⟨rfl, -⟩ := h
      exact h0
    | cons op ops ih =>
      intro s l h0 s' es h
      simp only [Go.runOps, logged] at h
      cases hs : wstep s op with
      | panic => rw [hs] at h; cases h
      | hang => rw [hs] at h; cases h
      | val p =>
        obtain ⟨s1, e1⟩ := p
        rw [hs] at h
        refine ih s1 _ ?_ s' es h
        cases op with
        | setConfig a o => cases hs; exact h0
        | setInt p v => cases hs; exact h0
        | setFloat p v => cases hs; exact h0
        | newCore a =>
          have : (newCore s a) = (s1, e1) := by unfold wstep at hs; exact Go.val.inj hs
          unfold newCore at this
          simp only at this
          split at this <;> cases this <;> simp only [CfgM.defaults_maps, h0]
        | setKey a j =>
          unfold wstep at hs
          simp only at hs
          split at hs <;> cases hs
          rename_i m hm
          unfold setKey at hm
          split at hm <;> cases hm
          rename_i q hq
          simp only
          by_cases hz : q = 0
          · subst hz
            rw [Function.update_self]
            split_ifs
            · exact h0
            · exact List.mem_append_left _ h0
          · rw [Function.update_of_ne (Ne.symm hz)]
            exact h0
        | push i x =>
          unfold wstep call at hs
          simp only at hs
          split at hs
          · cases hs
          · split at hs <;> cases hs
            exact h0
        | clear i =>
          unfold wstep call at hs
          simp only at hs
          split at hs
          · cases hs
          · split at hs <;> cases hs
            exact h0
  unfold newCore
  simp only
  split
  · simp
  · rename_i hv
    exfalso
    have hany : (((defaults s'.mem b).read b).sums.getD []).any (· ≤ 0) = true := by
      rw [List.any_eq_true]
      refine ⟨k, ?_, by simpa using hk⟩
      unfold defaults
      rw [hb]
      simpa [Mem.read] using hin'
    unfold Moment.validate at hv
    simp only [hany, if_true] at hv
    split at hv
    · cases hv
    · cases hdec : ((defaults s'.mem b).read b).decay with
      | none => rw [hdec] at hv; simp only at hv; split_ifs at hv
      | some d => rw [hdec] at hv; simp only at hv; split_ifs at hv

/-! ## Package `joint` -/

open Joint.Refs in
/-- C79, package `joint`, partial: a core made from a configuration answers, whatever else happens, as the core made from what the
configuration said at the call does after the calls made to it alone — provided nobody writes to the `float64` its `Decay` points to or to
the tuples of its `Sums`. Missing: that proviso (see `C79_joint_refuted`). The default slice has no elements to write to. -/
theorem C79_joint_partial {s s' : World K} (h0 : s.mem.slices 0 = []) {a : Nat} {c : Joint.Core K}
    (hn : Joint.newCore (s.mem.read a) = .val (.ok c)) {ops : List (Op K)}
    (hp : ∀ p, (s.mem.cfgs a).decay = some p → ∀ v, Op.setFloat p v ∉ ops)
    (ht : ∀ p, (s.mem.cfgs a).sums = some p → ∀ j t, Op.setTuple p j t ∉ ops)
    {es : List Err} (hr : wrun s (.newCore a :: ops) = .val (s', es)) :
    ∃ c' es', Joint.run c (jointCalls s.cores.length ops) = .val (c', es') ∧
      ∃ r, s'.cores[s.cores.length]? = some r ∧ Joint.count (r.view s'.mem) = Joint.count c' ∧
        (∀ i, Joint.mean (r.view s'.mem) i = Joint.mean c' i) ∧ ∀ t, Joint.sum (r.view s'.mem) t = Joint.sum c' t := by
  unfold wrun at hr
  simp only [Go.runOps, logged, wstep] at hr
  unfold Joint.newCore at hn
  split at hn
  · cases hn
  rename_i hv
  split at hn <;> cases hn
  rename_i hmk
  rw [← CfgJ.defaults_read h0] at hv hmk
  have hnew : newCore s a = .val (⟨inferVars (defaults s.mem a) a, s.cores ++ [⟨c, (s.mem.cfgs a).sums.getD 0, (s.mem.cfgs a).decay⟩]⟩, none) := by
    unfold newCore
    simp only
    rw [hv]
    simp only
    rw [CfgJ.infer_mk, hmk]
    simp only
    rw [CfgJ.infer_decay, CfgJ.defaults_decay, CfgJ.infer_sums, CfgJ.defaults_sums]
    rfl
  rw [hnew] at hr
  simp only [Go.val_bind, Go.pure_eq] at hr
  have hview : (⟨c, (s.mem.cfgs a).sums.getD 0, (s.mem.cfgs a).decay⟩ : RCore K).view (inferVars (defaults s.mem a) a) = c := by
    unfold RCore.view
    simp only
    rw [CfgJ.infer_floats, CfgJ.defaults_floats, CfgJ.infer_slices, CfgJ.defaults_slices]
    rw [CfgJ.defaults_read h0] at hmk
    unfold Joint.mk at hmk
    split at hmk <;> cases hmk
    simp only [Joint.setDefaults, Mem.read, Option.getD_some]
    cases (s.mem.cfgs a).sums <;> simp [h0]
  have hq : Joint.QOk ((⟨c, (s.mem.cfgs a).sums.getD 0, (s.mem.cfgs a).decay⟩ : RCore K).view (inferVars (defaults s.mem a) a)) := by
    rw [hview]
    unfold Joint.mk at hmk
    split at hmk <;> cases hmk
    intro x hx
    simp [Ring.new] at hx
  have ht' : (inferVars (defaults s.mem a) a).slices ((s.mem.cfgs a).sums.getD 0) = [] ∨
      ∀ j t, Op.setTuple ((s.mem.cfgs a).sums.getD 0) j t ∉ ops := by
    cases hs : (s.mem.cfgs a).sums with
    | some p => exact .inr (ht p hs)
    | none => exact .inl (by rw [CfgJ.infer_slices, CfgJ.defaults_slices]; exact h0)
  obtain ⟨r', h1, es', h2⟩ := CfgJ.wrun_view ops (i := s.cores.length)
    (r := ⟨c, (s.mem.cfgs a).sums.getD 0, (s.mem.cfgs a).decay⟩) (by simp) hq hp ht' hr
  rw [hview] at h2
  exact ⟨_, _, h2, r', h1, rfl, fun _ => rfl, fun _ => rfl⟩

open Joint.Refs in
/-- C79, package `joint`, partial: `NewCore` leaves every other configuration alone, and a second `NewCore` with the same configuration makes
the same core. Missing: the number of variables is written to the configuration, so it no longer serves tuples of another length (see
`C79_joint_refuted`). -/
theorem C79_joint_reuse_partial {s s' : World K} (h0 : s.mem.slices 0 = []) {a : Nat} {e : Option Err} (hn : newCore s a = .val (s', e)) :
    (∀ b, b ≠ a → s'.mem.read b = s.mem.read b) ∧ Joint.newCore (s'.mem.read a) = Joint.newCore (s.mem.read a) := by
  unfold newCore at hn
  simp only at hn
  split at hn
  · cases hn
    refine ⟨fun b hb => CfgJ.defaults_other s.mem hb, ?_⟩
    simp only
    rw [CfgJ.defaults_read h0]
    rfl
  · rename_i hv
    split at hn <;> cases hn
    rename_i hmk
    refine ⟨fun b hb => ?_, ?_⟩
    · simp only
      rw [CfgJ.infer_other _ hb, CfgJ.defaults_other _ hb]
    · simp only
      have hi := CfgJ.infer_validate (m := defaults s.mem a) hv
      have hset : Joint.setDefaults ((inferVars (defaults s.mem a) a).read a) = (inferVars (defaults s.mem a) a).read a := by
        rw [CfgJ.infer_read, CfgJ.defaults_read h0]
        rfl
      unfold Joint.newCore
      rw [hset, hi, ← CfgJ.defaults_read h0, hv, CfgJ.infer_mk]

end

/-! ### Concrete cases, package `moment` -/

open Moment.Refs in
/-- A start: two configurations with nil `Sums` and window 0; the second also has `Decay` at address 5, which says 1/2. -/
def cfgStart : World ℚ :=
  ⟨⟨fun a => if a = 2 then ⟨none, some 1, some 5⟩ else ⟨none, some 1, none⟩, fun _ => [], fun _ => 0, fun _ => 1 / 2⟩, []⟩

open Moment.Refs in
/-- What the `i`-th core says after a history: the errors of the history, `Count`, `Mean`, `Sum(3)`. -/
def momentSays (i : Nat) (ops : List (Op ℚ)) : Option (List Err × Int × Option ℚ × Option ℚ) :=
  match wrun cfgStart ops with
  | .val (s, es) => (s.cores[i]?).map fun r =>
      (es, Moment.count (r.view s.mem), (Moment.mean (r.view s.mem)).toOption, (Moment.sum (r.view s.mem) 3).toOption)
  | _ => none

set_option synthInstance.maxSize 512 in
set_option synthInstance.maxHeartbeats 200000 in
/-- C79, package `moment`: refuted. (1) With decay 1/2, values 0 and 8 have mean 4; if the caller stores 1/4 in the `float64` its
configuration pointed to, after `NewCore`, the mean is 2, and if 5, a number `NewCore` would have refused, 40. (2) After `NewCore` filled in
the nil `Sums` of one configuration, `config.Sums[3] = true` makes a core from another configuration with nil `Sums` track the third
moment. (3) And a key of -1 there makes `NewCore` with the other configuration fail. -/
theorem C79_moment_refuted :
    momentSays 0 [.newCore 2, .push 0 0, .push 0 8] = some ([], 2, some 4, none) ∧
    momentSays 0 [.newCore 2, .push 0 0, .setFloat 5 (1 / 4), .push 0 8] = some ([], 2, some 2, none) ∧
    momentSays 0 [.newCore 2, .push 0 0, .setFloat 5 5, .push 0 8] = some ([], 2, some 40, none) ∧
    momentSays 0 [.newCore 1, .push 0 7] = some ([], 1, some 7, none) ∧
    momentSays 1 [.newCore 0, .setKey 0 3, .newCore 1, .push 1 7] = some ([], 1, some 7, some 0) ∧
    momentSays 1 [.newCore 0, .setKey 0 (-1), .newCore 1] = none ∧
    momentSays 0 [.newCore 0, .setKey 0 (-1), .newCore 1] = some (["nonpositive central moment"], 0, none, none) := by
  decide +kernel

/-- `C79_moment_partial` at work: the window and the map of a configuration are rewritten and another core is made and used, and the first
core does not notice. -/
example : momentSays 0 [.newCore 2, .push 0 0, .setInt 1 7, .setConfig 2 ⟨none, none, none⟩, .newCore 1, .push 1 100, .push 0 8] =
    some ([], 2, some 4, none) := by decide +kernel

/-- The hypotheses of `C79_default_partial`: a key written to a map of the client's own. -/
example : Apart cfgStart [.setConfig 0 ⟨some 3, some 1, none⟩, .setKey 0 2] := by
  refine ⟨fun a k h => (by cases h), fun s' e h => ⟨fun a k h' => ?_, fun _ _ _ => trivial⟩⟩
  cases h'
  cases h
  simp

/-! ### Concrete cases, package `joint` -/

open Joint.Refs in
/-- A start: configurations with `Sums` at address 3, which say {(1,1)}, except the one at address 1, whose `Sums` at address 4 are
{(1,1,1)}; window 0; the one at address 2 has `Decay` at address 5, which says 1/2. -/
def jcfgStart : World ℚ :=
  ⟨⟨fun a => if a = 1 then ⟨some 4, some 1, none, none⟩ else if a = 2 then ⟨some 3, some 1, none, some 5⟩ else ⟨some 3, some 1, none, none⟩,
    fun p => if p = 3 then [[1, 1]] else if p = 4 then [[1, 1, 1]] else [], fun _ => 0, fun _ => 1 / 2⟩, []⟩

open Joint.Refs in
/-- What the `i`-th core says after a history: the errors of the history, `Count`, `Mean(0)`, `Sum(1, 1)`. -/
def jointSays (i : Nat) (ops : List (Op ℚ)) : Option (List Err × Int × Option ℚ × Option ℚ) :=
  match wrun jcfgStart ops with
  | .val (s, es) => (s.cores[i]?).map fun r =>
      (es, Joint.count (r.view s.mem), (Joint.mean (r.view s.mem) 0).toOption, (Joint.sum (r.view s.mem) [1, 1]).toOption)
  | _ => none

set_option synthInstance.maxSize 512 in
set_option synthInstance.maxHeartbeats 200000 in
/-- C79, package `joint`: refuted. (1) The points (0,0), (2,4) have the joint sum 4 for (1,1); if the caller overwrites the first tuple of
its configuration with (1,0) after `NewCore`, the core reports 0. (2) With decay 1/2, storing 1/4 where `Decay` points changes the mean.
(3) A configuration for two variables that has been given to `NewCore` once is refused when it is then used with tuples of three, though a
configuration that has not been used yet is not. -/
theorem C79_joint_refuted :
    jointSays 0 [.newCore 0, .push 0 [0, 0], .push 0 [2, 4]] = some ([], 2, some 1, some 4) ∧
    jointSays 0 [.newCore 0, .setTuple 3 0 [1, 0], .push 0 [0, 0], .push 0 [2, 4]] = some ([], 2, some 1, some 0) ∧
    jointSays 0 [.newCore 2, .push 0 [0, 0], .push 0 [8, 8]] = some ([], 2, some 4, some 16) ∧
    jointSays 0 [.newCore 2, .push 0 [0, 0], .setFloat 5 (1 / 4), .push 0 [8, 8]] = some ([], 2, some 2, some 12) ∧
    jointSays 0 [.newCore 1] = some ([], 0, none, none) ∧
    jointSays 0 [.newCore 0, .setConfig 1 ⟨some 4, some 1, none, none⟩, .newCore 1, .push 1 [1, 2, 3]] = some ([], 0, none, none) ∧
    jointSays 0 [.newCore 0, .setTuple 3 0 [1, 1, 1], .newCore 0] =
      some (["config has a Tuple whose length is not Vars"], 0, none, none) := by
  decide +kernel

/-- `C79_joint_partial` at work: other tuples and numbers are rewritten and another core is made and used. -/
example : jointSays 0 [.newCore 0, .setTuple 4 0 [2, 2, 2], .push 0 [0, 0], .newCore 1, .push 1 [1, 2, 3], .setInt 1 9, .push 0 [2, 4]] =
    some ([], 2, some 1, some 4) := by decide +kernel

end Verif.Props
