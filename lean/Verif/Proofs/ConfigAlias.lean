import Verif.Model.ConfigAlias
import Verif.Proofs.JointAlias
import Verif.Proofs.Moment

/-! # Cores and configurations by reference refine the pointer-free model -/

namespace Verif.Props
open Verif Verif.Spec
open Verif.Joint (Tuple)

section
variable {K : Type} [Field K] [GoOrd K]

open Moment.Refs in
/-- The calls made to the `i`-th core. -/
def momentCalls (i : Nat) : List (Op K) → List (MOp K)
  | [] => []
  | .push j x :: ops => if j = i then .push x :: momentCalls i ops else momentCalls i ops
  | .clear j :: ops => if j = i then .clear :: momentCalls i ops else momentCalls i ops
  | _ :: ops => momentCalls i ops

namespace CfgM
open Moment Moment.Refs

omit [GoOrd K] in
theorem view_step {m : Mem K} {r : RCore K} {op : MOp K} {c : Core K} {e : Option Err} (h : step (r.view m) op = .val (c, e)) :
    (⟨c, r.decay⟩ : RCore K).view m = c := by
  have := (step_frame h).2.2
  unfold RCore.view at this ⊢
  simp only at this ⊢
  rw [← this]

omit [Field K] [GoOrd K] in
theorem view_congr {m m' : Mem K} {r : RCore K} (h : ∀ p, r.decay = some p → m'.floats p = m.floats p) : r.view m' = r.view m := by
  unfold RCore.view
  cases e : r.decay with
  | none => rfl
  | some p => simp [h p e]

omit [Field K] [GoOrd K] in
theorem defaults_floats (m : Mem K) (a : Nat) : (defaults m a).floats = m.floats := by
  unfold defaults; split <;> rfl

omit [Field K] [GoOrd K] in
theorem defaults_maps (m : Mem K) (a : Nat) : (defaults m a).maps = m.maps := by
  unfold defaults; split <;> rfl

omit [Field K] [GoOrd K] in
theorem defaults_decay (m : Mem K) (a : Nat) : ((defaults m a).cfgs a).decay = (m.cfgs a).decay := by
  unfold defaults; split <;> simp

omit [Field K] [GoOrd K] in
theorem defaults_read {m : Mem K} (h : m.maps 0 = []) (a : Nat) : (defaults m a).read a = setDefaults (m.read a) := by
  unfold defaults
  cases e : (m.cfgs a).sums with
  | some p => simp [Mem.read, setDefaults, e]
  | none => simp [Mem.read, setDefaults, e, h]

omit [Field K] [GoOrd K] in
theorem defaults_other (m : Mem K) {a b : Nat} (h : b ≠ a) : (defaults m a).read b = m.read b := by
  unfold defaults
  split
  · rfl
  · simp [Mem.read, Function.update_of_ne h]

/-- One operation, seen by core `i`: either it is a call to it, or its view does not change. -/
theorem step_view {s s' : World K} {op : Op K} {e : Option Err} {i : Nat} {r : RCore K} (hr : s.cores[i]? = some r)
    (hp : ∀ p, r.decay = some p → ∀ v, op ≠ .setFloat p v) (h : wstep s op = .val (s', e)) :
    ∃ r', s'.cores[i]? = some r' ∧ r'.decay = r.decay ∧
      ∃ es, Moment.run (r.view s.mem) (momentCalls i [op]) = .val (r'.view s'.mem, es) := by
  have hcall : ∀ (j : Nat) (o : MOp K), call s j o = .val (s', e) →
      ∃ r', s'.cores[i]? = some r' ∧ r'.decay = r.decay ∧
        ∃ es, Moment.run (r.view s.mem) (if j = i then [o] else []) = .val (r'.view s'.mem, es) := by
    intro j o hc
    unfold call at hc
    cases hj : s.cores[j]? with
    | none => rw [hj] at hc; cases hc
    | some q =>
      rw [hj] at hc
      simp only at hc
      cases hs : step (q.view s.mem) o with
      | panic => rw [hs] at hc; cases hc
      | hang => rw [hs] at hc; cases hc
      | val ce =>
        obtain ⟨c, e1⟩ := ce
        rw [hs] at hc
        cases hc
        by_cases hji : j = i
        · subst hji
          rw [hr] at hj; cases hj
          have hlt : j < s.cores.length := by
            by_contra hlt
            rw [List.getElem?_eq_none (by omega)] at hr; cases hr
          refine ⟨⟨c, r.decay⟩, by simp [hlt], rfl, e.toList, ?_⟩
          rw [if_pos rfl, view_step hs]
          simp [Moment.run, Go.runOps, logged, hs]
        · refine ⟨r, ?_, rfl, [], ?_⟩
          · simp only
            rw [List.getElem?_set_ne hji]; exact hr
          · rw [if_neg hji]; rfl
  cases op with
  | setConfig a o => cases h; exact ⟨r, hr, rfl, [], rfl⟩
  | setKey a k =>
    unfold wstep at h
    simp only at h
    split at h <;> cases h
    rename_i m hm
    have hf : m.floats = s.mem.floats := by
      unfold setKey at hm
      split at hm <;> cases hm
      rfl
    refine ⟨r, hr, rfl, [], ?_⟩
    rw [view_congr (m := s.mem) (m' := m) (fun p _ => by rw [hf])]
    rfl
  | setInt p v => cases h; exact ⟨r, hr, rfl, [], rfl⟩
  | setFloat p v =>
    cases h
    refine ⟨r, hr, rfl, [], ?_⟩
    rw [view_congr (m := s.mem) (m' := { s.mem with floats := Function.update s.mem.floats p v })
      (fun q hq => Function.update_of_ne (fun hqp => hp q hq v (by rw [hqp])) _ _)]
    rfl
  | newCore a =>
    have h' : Refs.newCore s a = (s', e) := by unfold wstep at h; exact Go.val.inj h
    unfold Refs.newCore at h'
    simp only at h'
    have hlt : i < s.cores.length := by
      by_contra hlt
      rw [List.getElem?_eq_none (by omega)] at hr; cases hr
    split at h' <;> cases h'
    · refine ⟨r, hr, rfl, [], ?_⟩
      rw [view_congr (m := s.mem) (m' := defaults s.mem a) (fun p _ => by rw [defaults_floats])]
      rfl
    · refine ⟨r, ?_, rfl, [], ?_⟩
      · simp only
        rw [List.getElem?_append_left hlt]; exact hr
      · rw [view_congr (m := s.mem) (m' := defaults s.mem a) (fun p _ => by rw [defaults_floats])]
        rfl
  | push j x =>
    have := hcall j (.push x) h
    simp only [momentCalls]
    exact this
  | clear j =>
    have := hcall j .clear h
    simp only [momentCalls]
    exact this

omit [Field K] [GoOrd K] in
theorem calls_append (i : Nat) (op : Op K) (ops : List (Op K)) : momentCalls i (op :: ops) = momentCalls i [op] ++ momentCalls i ops := by
  cases op <;> simp only [momentCalls, List.nil_append]
  · split <;> simp
  · split <;> simp

omit [GoOrd K] in
theorem run_log (ops : List (MOp K)) (c : Core K) (l : List Err) :
    Go.runOps (logged step) (c, l) ops = (match Moment.run c ops with
      | .panic => .panic
      | .hang => .hang
      | .val (c', es) => .val (c', l ++ es)) := by
  unfold Moment.run
  induction ops generalizing c l with
  | nil => simp [Go.runOps]
  | cons op ops ih =>
    simp only [Go.runOps, logged]
    cases hs : step c op with
    | panic => rfl
    | hang => rfl
    | val p =>
      simp only [Go.val_bind, Go.pure_eq, List.nil_append]
      rw [ih p.1 (l ++ p.2.toList), ih p.1 p.2.toList]
      cases Go.runOps (logged step) (p.1, []) ops with
      | panic => rfl
      | hang => rfl
      | val q => simp

omit [GoOrd K] in
theorem run_append {c c1 c2 : Core K} {ops ops' : List (MOp K)} {es es' : List Err} (h : Moment.run c ops = .val (c1, es))
    (h' : Moment.run c1 ops' = .val (c2, es')) : Moment.run c (ops ++ ops') = .val (c2, es ++ es') := by
  have h0 := h
  unfold Moment.run at h ⊢
  rw [Go.runOps_append, h]
  simp only
  rw [run_log, h']

theorem wrun_view (ops : List (Op K)) : ∀ {s s' : World K} {l es : List Err} {i : Nat} {r : RCore K}, s.cores[i]? = some r →
    (∀ p, r.decay = some p → ∀ v, Op.setFloat p v ∉ ops) → Go.runOps (logged wstep) (s, l) ops = .val (s', es) →
    ∃ r', s'.cores[i]? = some r' ∧ ∃ es', Moment.run (r.view s.mem) (momentCalls i ops) = .val (r'.view s'.mem, es') := by
  induction ops with
  | nil =>
    intro s s' l es i r hr _ h
    simp only [Go.runOps, Go.val.injEq, Prod.mk.injEq] at h
    obtain ⟨rfl, -⟩ := h
    exact ⟨r, hr, [], rfl⟩
  | cons op ops ih =>
    intro s s' l es i r hr hp h
    simp only [Go.runOps, logged] at h
    cases hs : wstep s op with
    | panic => rw [hs] at h; cases h
    | hang => rw [hs] at h; cases h
    | val p =>
      obtain ⟨s1, e1⟩ := p
      rw [hs] at h
      simp only [Go.val_bind, Go.pure_eq] at h
      obtain ⟨r1, hr1, hd, es1, e1⟩ := step_view hr (fun p hq v hv => hp p hq v (by rw [hv]; simp)) hs
      obtain ⟨r2, hr2, es2, e2⟩ := ih hr1 (fun p hq v hv => hp p (hd ▸ hq) v (List.mem_cons_of_mem _ hv)) h
      refine ⟨r2, hr2, es1 ++ es2, ?_⟩
      rw [calls_append]
      exact run_append e1 e2

end CfgM

open Joint.Refs in
/-- The calls made to the `i`-th core. -/
def jointCalls (i : Nat) : List (Op K) → List (MOp (List K))
  | [] => []
  | .push j x :: ops => if j = i then .push x :: jointCalls i ops else jointCalls i ops
  | .clear j :: ops => if j = i then .clear :: jointCalls i ops else jointCalls i ops
  | _ :: ops => jointCalls i ops

namespace CfgJ
open Joint Joint.Refs

omit [Field K] [GoOrd K] in
theorem view_congr {m m' : Mem K} {r : RCore K} (h : ∀ p, r.decay = some p → m'.floats p = m.floats p)
    (ht : m'.slices r.tuples = m.slices r.tuples) : r.view m' = r.view m := by
  unfold RCore.view
  rw [ht]
  cases e : r.decay with
  | none => rfl
  | some p => simp [h p e]

omit [GoOrd K] in
theorem view_step {m : Mem K} {r : RCore K} {op : MOp (List K)} {c : Core K} {e : Option Err} (hq : QOk (r.view m))
    (h : step (r.view m) op = .val (c, e)) : (⟨c, r.tuples, r.decay⟩ : RCore K).view m = c := by
  have h1 := (step_frame hq h).1.decay
  have h2 := (step_frame hq h).1.tuples
  unfold RCore.view at h1 h2 ⊢
  simp only at h1 h2 ⊢
  rw [← h1, ← h2]

omit [Field K] [GoOrd K] in
theorem defaults_floats (m : Mem K) (a : Nat) : (defaults m a).floats = m.floats := by
  unfold defaults; split <;> rfl

omit [Field K] [GoOrd K] in
theorem defaults_slices (m : Mem K) (a : Nat) : (defaults m a).slices = m.slices := by
  unfold defaults; split <;> rfl

omit [Field K] [GoOrd K] in
theorem infer_floats (m : Mem K) (a : Nat) : (inferVars m a).floats = m.floats := by
  unfold inferVars; split <;> rfl

omit [Field K] [GoOrd K] in
theorem infer_slices (m : Mem K) (a : Nat) : (inferVars m a).slices = m.slices := by
  unfold inferVars; split <;> rfl

omit [Field K] [GoOrd K] in
theorem defaults_read {m : Mem K} (h : m.slices 0 = []) (a : Nat) : (defaults m a).read a = setDefaults (m.read a) := by
  unfold defaults
  cases e : (m.cfgs a).sums with
  | some p => simp [Mem.read, setDefaults, e]
  | none => simp [Mem.read, setDefaults, e, h]

omit [Field K] [GoOrd K] in
theorem defaults_decay (m : Mem K) (a : Nat) : ((defaults m a).cfgs a).decay = (m.cfgs a).decay := by
  unfold defaults; split <;> simp

omit [Field K] [GoOrd K] in
theorem defaults_sums (m : Mem K) (a : Nat) : ((defaults m a).cfgs a).sums = some ((m.cfgs a).sums.getD 0) := by
  unfold defaults; split <;> simp_all

omit [Field K] [GoOrd K] in
theorem infer_decay (m : Mem K) (a : Nat) : ((inferVars m a).cfgs a).decay = (m.cfgs a).decay := by
  unfold inferVars; split <;> simp

omit [Field K] [GoOrd K] in
theorem infer_sums (m : Mem K) (a : Nat) : ((inferVars m a).cfgs a).sums = (m.cfgs a).sums := by
  unfold inferVars; split <;> simp

omit [Field K] [GoOrd K] in
/-- What the configuration says after the variables are inferred. -/
theorem infer_read (m : Mem K) (a : Nat) : (inferVars m a).read a =
    { m.read a with vars := match (m.read a).vars, (m.read a).sums.getD [] with
        | none, t :: _ => some t.length
        | v, _ => v } := by
  unfold inferVars
  cases hv : (m.cfgs a).vars with
  | some v => simp [Mem.read, hv]
  | none =>
    cases hs : (m.read a).sums.getD [] with
    | nil => simp [Mem.read, hv] at hs ⊢
    | cons t ts => simp [Mem.read, hv] at hs ⊢

omit [Field K] [GoOrd K] in
theorem defaults_other (m : Mem K) {a b : Nat} (h : b ≠ a) : (defaults m a).read b = m.read b := by
  unfold defaults
  split
  · rfl
  · simp [Mem.read, Function.update_of_ne h]

omit [Field K] [GoOrd K] in
theorem infer_other (m : Mem K) {a b : Nat} (h : b ≠ a) : (inferVars m a).read b = m.read b := by
  unfold inferVars
  split
  · simp [Mem.read, Function.update_of_ne h]
  · rfl

theorem validateTuples_vars (n : Nat) : ∀ ts : List Tuple, validateTuples n none ts = none → validateTuples n (some (n : Int)) ts = none
  | [], _ => rfl
  | t :: ts, h => by
    unfold validateTuples at h ⊢
    split at h
    · cases h
    · rename_i h1
      have : validateTuple n (some (n : Int)) t = none := by
        unfold validateTuple at h1 ⊢
        split_ifs at h1 ⊢ with a1 a2 a3 a4 a5 <;> simp_all
      rw [this]
      exact validateTuples_vars n ts h

/-- Inferring the variables of a valid configuration leaves it valid. -/
theorem infer_validate {m : Mem K} {a : Nat} (h : validate 0 1 (m.read a) = none) : validate 0 1 ((inferVars m a).read a) = none := by
  rw [infer_read]
  cases hv : (m.read a).vars with
  | some v => simp only; rw [← hv]; exact h
  | none =>
    cases hs : (m.read a).sums.getD [] with
    | nil => simp only; rw [← hv]; exact h
    | cons t ts =>
      simp only
      unfold validate at h ⊢
      simp only at h ⊢
      split at h
      · cases h
      · rename_i w hw
        simp only [hw]
        split_ifs at h with h1 h2
        rw [if_neg h1]
        split at h
        · cases h
        · rename_i hd
          unfold validateSums at h
          split at h
          · cases h
          · rename_i ht
            rw [hv, hs] at ht
            simp only [List.head?_cons, Option.map_some, Option.getD_some] at ht
            have hlen : 2 ≤ t.length := by
              unfold validateTuples at ht
              split at ht
              · cases ht
              · rename_i h1
                unfold validateTuple at h1
                split_ifs at h1
                omega
            rw [if_neg (by simp; omega)]
            unfold validateSums
            simp only [hs, List.head?_cons, Option.map_some, Option.getD_some]
            rw [validateTuples_vars _ _ ht]
            simp

omit [GoOrd K] in
theorem infer_mk (m : Mem K) (a : Nat) : mk ((inferVars m a).read a) = (mk (m.read a) : Go (Core K)) := by
  rw [infer_read]
  unfold mk
  simp only
  have : varsOf ({ m.read a with vars := match (m.read a).vars, (m.read a).sums.getD [] with
        | none, t :: _ => some t.length
        | v, _ => v } : Config K) = varsOf (m.read a) := by
    unfold varsOf
    cases hv : (m.read a).vars with
    | some v => simp
    | none =>
      cases hs : (m.read a).sums.getD [] with
      | nil => simp
      | cons t ts => simp
  rw [this]

/-- One operation, seen by core `i`. -/
theorem step_view {s s' : World K} {op : Op K} {e : Option Err} {i : Nat} {r : RCore K} (hr : s.cores[i]? = some r)
    (hq : QOk (r.view s.mem)) (hp : ∀ p, r.decay = some p → ∀ v, op ≠ .setFloat p v)
    (ht : s.mem.slices r.tuples = [] ∨ ∀ j t, op ≠ .setTuple r.tuples j t) (h : wstep s op = .val (s', e)) :
    ∃ r', s'.cores[i]? = some r' ∧ r'.decay = r.decay ∧ r'.tuples = r.tuples ∧
      s'.mem.slices r.tuples = s.mem.slices r.tuples ∧ QOk (r'.view s'.mem) ∧
      ∃ es, Joint.run (r.view s.mem) (jointCalls i [op]) = .val (r'.view s'.mem, es) := by
  have hcall : ∀ (j : Nat) (o : MOp (List K)), call s j o = .val (s', e) →
      ∃ r', s'.cores[i]? = some r' ∧ r'.decay = r.decay ∧ r'.tuples = r.tuples ∧
        s'.mem.slices r.tuples = s.mem.slices r.tuples ∧ QOk (r'.view s'.mem) ∧
        ∃ es, Joint.run (r.view s.mem) (if j = i then [o] else []) = .val (r'.view s'.mem, es) := by
    intro j o hc
    unfold call at hc
    cases hj : s.cores[j]? with
    | none => rw [hj] at hc; cases hc
    | some q =>
      rw [hj] at hc
      simp only at hc
      cases hs : step (q.view s.mem) o with
      | panic => rw [hs] at hc; cases hc
      | hang => rw [hs] at hc; cases hc
      | val ce =>
        obtain ⟨c, e1⟩ := ce
        rw [hs] at hc
        cases hc
        by_cases hji : j = i
        · subst hji
          rw [hr] at hj; cases hj
          have hlt : j < s.cores.length := by
            by_contra hlt
            rw [List.getElem?_eq_none (by omega)] at hr; cases hr
          refine ⟨⟨c, r.tuples, r.decay⟩, by simp [hlt], rfl, rfl, rfl, ?_, e.toList, ?_⟩
          · simp only
            rw [view_step hq hs]; exact (step_frame hq hs).2
          · rw [if_pos rfl, view_step hq hs]
            simp [Joint.run, Go.runOps, logged, hs]
        · refine ⟨r, ?_, rfl, rfl, rfl, hq, [], ?_⟩
          · simp only
            rw [List.getElem?_set_ne hji]; exact hr
          · rw [if_neg hji]; rfl
  cases op with
  | setConfig a o => cases h; exact ⟨r, hr, rfl, rfl, rfl, hq, [], rfl⟩
  | setTuple p j t =>
    unfold wstep at h
    simp only at h
    split_ifs at h
    have hne : p ≠ r.tuples := by
      rintro rfl
      rcases ht with ht | ht
      · rename_i hlt; rw [ht] at hlt; simp at hlt
      · exact ht j t rfl
    cases h
    have hv := view_congr (m := s.mem) (m' := { s.mem with slices := Function.update s.mem.slices p ((s.mem.slices p).set j t) })
      (r := r) (fun _ _ => rfl) (Function.update_of_ne (Ne.symm hne) _ _)
    refine ⟨r, hr, rfl, rfl, Function.update_of_ne (Ne.symm hne) _ _, ?_, [], ?_⟩
    · rw [hv]; exact hq
    · rw [hv]; rfl
  | setInt p v => cases h; exact ⟨r, hr, rfl, rfl, rfl, hq, [], rfl⟩
  | setFloat p v =>
    cases h
    have hv := view_congr (m := s.mem) (m' := { s.mem with floats := Function.update s.mem.floats p v }) (r := r)
      (fun q hq => Function.update_of_ne (fun hqp => hp q hq v (by rw [hqp])) _ _) rfl
    refine ⟨r, hr, rfl, rfl, rfl, ?_, [], ?_⟩
    · rw [hv]; exact hq
    · rw [hv]; rfl
  | newCore a =>
    have hlt : i < s.cores.length := by
      by_contra hlt
      rw [List.getElem?_eq_none (by omega)] at hr; cases hr
    unfold wstep Refs.newCore at h
    simp only at h
    split at h
    · cases h
      have hv := view_congr (m := s.mem) (m' := defaults s.mem a) (r := r) (fun _ _ => by rw [defaults_floats]) (by rw [defaults_slices])
      refine ⟨r, hr, rfl, rfl, by simp only [defaults_slices], ?_, [], ?_⟩
      · rw [hv]; exact hq
      · rw [hv]; rfl
    · split at h <;> cases h
      have hv := view_congr (m := s.mem) (m' := inferVars (defaults s.mem a) a) (r := r)
        (fun _ _ => by rw [infer_floats, defaults_floats]) (by rw [infer_slices, defaults_slices])
      refine ⟨r, ?_, rfl, rfl, by simp only [infer_slices, defaults_slices], ?_, [], ?_⟩
      · simp only
        rw [List.getElem?_append_left hlt]; exact hr
      · rw [hv]; exact hq
      · rw [hv]; rfl
  | push j x =>
    have := hcall j (.push x) h
    simp only [jointCalls]
    exact this
  | clear j =>
    have := hcall j .clear h
    simp only [jointCalls]
    exact this

omit [Field K] [GoOrd K] in
theorem calls_append (i : Nat) (op : Op K) (ops : List (Op K)) : jointCalls i (op :: ops) = jointCalls i [op] ++ jointCalls i ops := by
  cases op <;> simp only [jointCalls, List.nil_append]
  · split <;> simp
  · split <;> simp

omit [GoOrd K] in
theorem run_log (ops : List (MOp (List K))) (c : Core K) (l : List Err) :
    Go.runOps (logged step) (c, l) ops = (match Joint.run c ops with
      | .panic => .panic
      | .hang => .hang
      | .val (c', es) => .val (c', l ++ es)) := by
  unfold Joint.run
  induction ops generalizing c l with
  | nil => simp [Go.runOps]
  | cons op ops ih =>
    simp only [Go.runOps, logged]
    cases hs : step c op with
    | panic => rfl
    | hang => rfl
    | val p =>
      simp only [Go.val_bind, Go.pure_eq, List.nil_append]
      rw [ih p.1 (l ++ p.2.toList), ih p.1 p.2.toList]
      cases Go.runOps (logged step) (p.1, []) ops with
      | panic => rfl
      | hang => rfl
      | val q => simp

omit [GoOrd K] in
theorem run_append {c c1 c2 : Core K} {ops ops' : List (MOp (List K))} {es es' : List Err} (h : Joint.run c ops = .val (c1, es))
    (h' : Joint.run c1 ops' = .val (c2, es')) : Joint.run c (ops ++ ops') = .val (c2, es ++ es') := by
  unfold Joint.run at h ⊢
  rw [Go.runOps_append, h]
  simp only
  rw [run_log, h']

theorem wrun_view (ops : List (Op K)) : ∀ {s s' : World K} {l es : List Err} {i : Nat} {r : RCore K}, s.cores[i]? = some r →
    QOk (r.view s.mem) → (∀ p, r.decay = some p → ∀ v, Op.setFloat p v ∉ ops) →
    (s.mem.slices r.tuples = [] ∨ ∀ j t, Op.setTuple r.tuples j t ∉ ops) → Go.runOps (logged wstep) (s, l) ops = .val (s', es) →
    ∃ r', s'.cores[i]? = some r' ∧ ∃ es', Joint.run (r.view s.mem) (jointCalls i ops) = .val (r'.view s'.mem, es') := by
  induction ops with
  | nil =>
    intro s s' l es i r hr _ _ _ h
    simp only [Go.runOps, Go.val.injEq, Prod.mk.injEq] at h
    obtain ⟨rfl, -⟩ := h
    exact ⟨r, hr, [], rfl⟩
  | cons op ops ih =>
    intro s s' l es i r hr hq hp ht h
    simp only [Go.runOps, logged] at h
    cases hs : wstep s op with
    | panic => rw [hs] at h; cases h
    | hang => rw [hs] at h; cases h
    | val p =>
      obtain ⟨s1, e1⟩ := p
      rw [hs] at h
      simp only [Go.val_bind, Go.pure_eq] at h
      obtain ⟨r1, hr1, hd, htt, hsl, hq1, es1, e1⟩ := step_view hr hq (fun p hq v hv => hp p hq v (by rw [hv]; simp))
        (ht.imp id fun ht j t hv => ht j t (by rw [hv]; simp)) hs
      obtain ⟨r2, hr2, es2, e2⟩ := ih hr1 hq1 (fun p hq v hv => hp p (hd ▸ hq) v (List.mem_cons_of_mem _ hv))
        (ht.imp (fun ht => by rw [htt, hsl, ht]) fun ht j t hv => ht j t (htt ▸ List.mem_cons_of_mem _ hv)) h
      refine ⟨r2, hr2, es1 ++ es2, ?_⟩
      rw [calls_append]
      exact run_append e1 e2

end CfgJ

end

end Verif.Props
