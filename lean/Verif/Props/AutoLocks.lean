import Verif.Props.Locks
import Verif.Proofs.AutoLocks

/-! # C70: concurrent use of Autocov and Autocorr

`corr` chooses between the two; their methods are the same up to the inner metric. `Value` looks at the number of pairs under one read
lock and computes its result under another one. -/

namespace Verif.Props
open Verif Verif.Spec Verif.Locks

set_option linter.unusedSectionVars false

variable {T : Type} [DecidableEq T]
variable {K : Type} [Field K] [LinearOrder K]

/-- The metric as its constructor and `Init` leave it. -/
def NewAuto [GoOrd K] (corr : Bool) (lag window : Int) (s0 : AutoMem K) : Prop :=
  ∃ a, Joint.Auto.new corr lag window = .ok a ∧ a.init = .val (s0.auto corr lag window, none)

theorem NewAuto.aok [GoOrd K] {corr : Bool} {lag window : Int} {s0 : AutoMem K} (h : NewAuto corr lag window s0) :
    Joint.AOK lag s0.queue s0.core ∧ s0.core.count = 0 := by
  obtain ⟨a, h1, h2⟩ := h
  obtain ⟨c, h3, h4⟩ := auto_new_ok h1 h2
  cases h3
  exact h4

variable [GoOrd K] (r : K → K) {corr : Bool} {lag window : Int} {B : AutoBody K}

/-! ## Without Clear -/

/-- `Push` and `Value`. -/
abbrev NoClear (K : Type) := { c : Call K Unit // c ≠ .clear }

/-- As long as nobody calls `Clear`, the metric behaves as if the calls were made one after the other. Missing: `Clear`
(`C70_refuted`, `C70_clear_partial`). -/
theorem C70_partial (h : B.OK r corr lag window) {s0 : AutoMem K} (h0 : NewAuto corr lag window s0) :
    Atomic T (fun c : NoClear K => autoObj r corr B c.1) (fun c => (autoMethods r corr lag window).sem c.1) s0 := by
  have keep : ∀ n : Int, n ≤ 1 → Stable (fun c : NoClear K => autoObj r corr B c.1) fun s => Joint.AOK lag s.queue s.core ∧ n ≤ s.core.count := by
    intro n hn c s s' b hs e
    obtain ⟨c, hc⟩ := c
    rw [autoObj_run h] at e
    cases c with
    | clear => exact absurd rfl hc
    | get v => cases e; exact hs
    | push x =>
      have := auto_push_mem (r := r) (corr := corr) (window := window) (P := fun c => n ≤ c.count) hs.1 x hs.2
        fun xs => (Joint.push_count hs.1.1 xs).mono fun r hr => by have := hs.2; omega
      simp only [Methods.sem] at e
      rcases hp : (autoMethods r corr lag window).push s x with y | _ | _
      · rw [hp] at this e
        cases e
        exact this
      · rw [hp] at e; cases e
      · rw [hp] at e; cases e
  refine atomic_sections (Q := fun s => Joint.AOK lag s.queue s.core ∧ 0 ≤ s.core.count) ⟨keep 0 (by omega), fun m => ?_⟩
    ⟨h0.aok.1, h0.aok.2.ge⟩ fun m s => autoObj_run h m.1 s
  obtain ⟨c, hc⟩ := m
  cases c with
  | clear => exact absurd rfl hc
  | push x => exact sect_of_crit (other_crit h (c := .push x) (by simp)) fun _ _ => rfl
  | get v =>
    refine value_sect h (f := id) ?_ (keep 1 le_rfl) (fun s hs hn => ⟨hs.1, by have := hs.2; omega⟩) fun s hs => ?_
    · show (autoValue r corr B).map Out.got = _
      unfold Prog.map
      rw [Prog.bind_assoc]; rfl
    · show _ = (autoObj r corr B (.get v)).run s
      rw [autoObj_run h, Prog.run_map, Prog.run_map, autoInner_computes h.core s]
      have hn : ¬ s.core.count = 0 := by have := hs.2; omega
      simp only [Methods.sem, autoMethods, Joint.Auto.value, AutoMem.auto]
      rw [if_neg hn]
      rfl

/-! ## With Clear -/

/-- The message of `Value` when `Clear` came between its two sections, read as the message for an empty metric. -/
def sameMessage {V : Type} (corr : Bool) : Out (Except Err V) → Out (Except Err V)
  | .got (.error e) => .got (.error (
      if e = (if corr then "error retrieving sum for {1, 1}" else "error retrieving sum") ++ ": no values seen yet" then "Not enough values seen"
      else e))
  | o => o

theorem auto_sections (h : B.OK r corr lag window) :
    Sections (fun c => (autoObj r corr B c).map (sameMessage corr)) fun s => Joint.AOK lag s.queue s.core := by
  have keep : Stable (fun c => (autoObj r corr B c).map (sameMessage corr)) fun s => Joint.AOK lag s.queue s.core := by
    intro c s s' b hs e
    rw [autoObj_map_run h] at e
    have hq := (auto_quiet (r := r) (corr := corr) (window := window)).sem c hs
    rcases hp : (autoMethods r corr lag window).sem c s with y | _ | _
    · rw [hp] at e hq; cases e; exact hq
    · rw [hp] at e; cases e
    · rw [hp] at e; cases e
  refine ⟨keep, fun c => ?_⟩
  cases c with
  | clear => exact sect_of_crit ((other_crit h (c := .clear) (by simp)).map _) fun _ _ => rfl
  | push x => exact sect_of_crit ((other_crit h (c := .push x) (by simp)).map _) fun _ _ => rfl
  | get v =>
    refine value_sect (obj := fun c => (autoObj r corr B c).map (sameMessage corr)) h (f := sameMessage corr) rfl keep (fun s hs _ => hs) fun s _ => ?_
    rw [autoObj_map_run h, Prog.run_map, Prog.run_map, autoInner_computes h.core s]
    simp only [Methods.sem, autoMethods, Joint.Auto.value, AutoMem.auto]
    by_cases hn : s.core.count = 0
    · rw [if_pos hn]
      cases corr with
      | true => simp [Joint.Metric.corrValue, Joint.sum, hn, Joint.wrapErr, sameMessage]
      | false => simp [Joint.Metric.covValue, Joint.sum, hn, Joint.wrapErr, sameMessage]
    · rw [if_neg hn]
      rfl

/-- With `Clear`, the metric behaves as if the calls were made one after the other up to one error message. -/
theorem C70_clear_partial (h : B.OK r corr lag window) {s0 : AutoMem K} (h0 : NewAuto corr lag window s0) :
    Atomic T (fun c => (autoObj r corr B c).map (sameMessage corr))
      (fun c s => do let x ← (autoMethods r corr lag window).sem c s; pure (x.1, sameMessage corr x.2)) s0 :=
  atomic_sections (auto_sections r h) h0.aok.1 fun m s => autoObj_map_run h _ m s

/-- C70, partial, for the code itself divided into actions at its calls: the two theorems above for `autoSteps`. Missing: as there. -/
theorem C70_steps_partial (r : K → K) (corr : Bool) {lag window : Int} {s0 : AutoMem K} (h0 : NewAuto corr lag window s0) :
    Atomic T (fun c : NoClear K => autoObj r corr (autoSteps lag) c.1) (fun c => (autoMethods r corr lag window).sem c.1) s0 ∧
      Atomic T (fun c => (autoObj r corr (autoSteps lag) c).map (sameMessage corr))
        (fun c s => do let x ← (autoMethods r corr lag window).sem c s; pure (x.1, sameMessage corr x.2)) s0 :=
  ⟨C70_partial r autoSteps_ok h0, C70_clear_partial r autoSteps_ok h0⟩

/-- A new metric, and the two divisions of the methods into actions. -/
example : (∃ s0 : AutoMem ℚ, NewAuto true 1 3 s0) ∧ (∃ s0 : AutoMem ℚ, NewAuto false 0 0 s0) ∧
    (autoSingle id true 1 3 : AutoBody ℚ).OK id true 1 3 ∧ (autoSteps 1 : AutoBody ℚ).OK id true 1 3 :=
  ⟨⟨⟨_, _⟩, _, rfl, rfl⟩, ⟨⟨_, _⟩, _, rfl, rfl⟩, autoSingle_ok, autoSteps_ok⟩

/-- A new metric over the rationals, lag 0, no window. -/
def autoStart (corr : Bool) : AutoMem ℚ :=
  ⟨Ring.new 0, match Joint.newCore (if corr then Joint.Kind.corr 0 else .cov 0 : Joint.Kind ℚ).config with
    | .val (.ok c) => c
    | _ => ⟨[], [], fun _ => none, fun _ => none, 0, 0, none, Ring.new 0⟩⟩

theorem autoStart_new (corr : Bool) : NewAuto corr 0 0 (autoStart corr) := by cases corr <;> exact ⟨_, rfl, rfl⟩

/-- The answer that one goroutine alone never gets. -/
def oddMessage (corr : Bool) : Err := if corr then "error retrieving sum for {1, 1}: no values seen yet" else "error retrieving sum: no values seen yet"

theorem value_ne_odd {K : Type} [Field K] [LinearOrder K] (r : K → K) (a : Joint.Auto K) : Joint.Auto.value r a ≠ .error (oddMessage a.corr) := by
  unfold Joint.Auto.value oddMessage
  rcases a with ⟨corr, lag, window, queue, _ | c⟩
  · cases corr <;> simp
  · simp only []
    by_cases hn : c.count = 0
    · rw [if_pos hn]; cases corr <;> simp
    · rw [if_neg hn]
      cases corr with
      | true =>
        simp only [if_true, Joint.Metric.corrValue, Joint.sum, if_neg hn]
        rcases c.sums (Joint.hash [1, 1]) with _ | v
        · simp [Joint.wrapErr]
        rcases c.sums (Joint.hash [2, 0]) with _ | v'
        · simp [Joint.wrapErr]
        rcases c.sums (Joint.hash [0, 2]) with _ | v''
        · simp [Joint.wrapErr]
        · simp [Joint.wrapErr]
      | false =>
        simp only [Bool.false_eq_true, if_false, Joint.Metric.covValue, Joint.sum, if_neg hn]
        rcases c.sums (Joint.hash [1, 1]) with _ | v
        · simp [Joint.wrapErr]
        · simp [Joint.wrapErr]

/-- Goroutine 0 pushes 1 and calls `Value`; after it has seen the number of pairs, goroutine 1 calls `Clear`. -/
theorem odd_exec (corr : Bool) : ∃ s : St (Fin 2) (Call ℚ Unit) _ _,
    Steps (autoObj id corr (autoSingle id corr 0 0)) (St.init (autoStart corr)) s ∧
    s.hist = [.inv 0 0 (.push 1), .res 0 (.pushed none), .inv 1 0 (.get ()), .inv 2 1 .clear, .res 2 .cleared,
      .res 1 (.got (.error (oddMessage corr)))] := by
  refine exists_exec (l := [.call 0 (.push 1)] ++ List.replicate 5 (.go 0) ++ [.call 0 (.get ()), .go 0, .go 0, .go 0, .call 1 .clear] ++
    List.replicate 5 (.go 1) ++ List.replicate 6 (.go 0)) ?_
  cases corr <;> decide +kernel

/-- The property fails: the error above is returned, which no order of the calls explains. -/
theorem C70_refuted (corr : Bool) : NewAuto corr 0 0 (autoStart corr) ∧
    ¬ Atomic (Fin 2) (autoObj id corr (autoSingle id corr 0 0)) (autoMethods id corr 0 0).sem (autoStart corr) := by
  refine ⟨autoStart_new corr, fun h => ?_⟩
  obtain ⟨s, hs, hh⟩ := odd_exec corr
  obtain ⟨lin, q, hx, _⟩ := (h s hs).1
  obtain ⟨m, hm⟩ := hx.returned 1 (.got (.error (oddMessage corr))) (by rw [hh]; simp)
  have key : ∀ {s0 q} {lin : List (Nat × Call ℚ Unit × Out (Except Err (XF ℚ)))}, SeqRun (autoMethods id corr 0 0).sem s0 lin q →
      ∀ id m b, (id, m, b) ∈ lin → b ≠ .got (.error (oddMessage corr)) := by
    intro s0 q lin hr
    induction hr with
    | nil => intro id m b hm; cases hm
    | @snoc s' s'' l i m b _ he ih =>
      intro id' m' b' hm
      rcases List.mem_append.1 hm with hm | hm
      · exact ih _ _ _ hm
      · cases List.mem_singleton.1 hm
        rintro rfl
        cases m with
        | get v =>
          simp only [Methods.sem] at he
          have he' := congrArg (fun x : Go (AutoMem ℚ × Out (Except Err (XF ℚ))) => match x with | .val y => y.2 | _ => .cleared) he
          simp only [autoMethods] at he'
          exact value_ne_odd id (s'.auto corr 0 0) (Out.got.inj (show Out.got _ = Out.got _ from he'))
        | clear => cases he
        | push x =>
          simp only [Methods.sem] at he
          rcases hp : (autoMethods id corr 0 0).push s' x with y | _ | _ <;> rw [hp] at he <;> cases he
  exact key hx.runs _ _ _ hm rfl

/-! ## Deadlock (C60) -/

omit [GoOrd K] in
/-- The property fails for Autocov and Autocorr too, once there is a pair. -/
theorem C60_refuted_auto (h : B.OK r corr lag window) (s0 : AutoMem K) (hn : s0.core.count ≠ 0) : CanDeadlock T (autoObj r corr B) s0 () := by
  intro t u x htu
  let s1 : St T (Call K Unit) (AutoMem K) (Out (Except Err (XF K))) :=
    { (St.init s0 : St T (Call K Unit) _ _).set t (.run 0 (autoObj r corr B (.get ())) 0 .no) with hist := [.inv 0 t (.get ())], next := 1 }
  have hsteps1 : Steps (autoObj r corr B) (St.init s0) s1 := .step (.refl _) (.inl (.mk _ t (Call.get ()) rfl rfl))
  obtain ⟨p, hp⟩ := autoInner_rlock (r := r) (corr := corr) (B := B)
  have e : autoObj r corr B (.get ()) = .rlock (B.core.count.onCore.bind fun n => .runlock
      ((if n = 0 then .ret (.error "Not enough values seen") else autoInner r corr B : Prog _ _).map Out.got)) := by
    show (autoValue r corr B).map Out.got = _
    rw [autoValue_eq]
    simp only [Prog.map, Prog.bind, Prog.bind_assoc]
  let s2 := s1.set t (.run 0 (B.core.count.onCore.bind fun n => .runlock
      ((if n = 0 then .ret (.error "Not enough values seen") else autoInner r corr B : Prog _ _).map Out.got)) 1 .no)
  have hsteps2 : Steps (autoObj r corr B) (St.init s0) s2 :=
    .step hsteps1 (.inr (.rlock s1 t 0 _ 0 rfl (by rw [← e]; exact St.set_same _ t _) rfl))
  let s3 := s2.set t (.run 0 (.runlock ((autoInner r corr B).map Out.got)) 1 .no)
  have hsteps3 : Steps (autoObj r corr B) (St.init s0) s3 := by
    have := readOnly_steps (obj := autoObj r corr B) h.core.count_read.onCore (s := s2) (t := t) (id := 0) (held := 1) (w := .no) (b := s0.core.count)
      (g := fun n => .runlock ((if n = 0 then .ret (.error "Not enough values seen") else autoInner r corr B : Prog _ _).map Out.got)) rfl
      (St.set_same s1 t _) (count_computes h.core s0)
    simp only [if_neg hn] at this
    exact hsteps2.trans' this
  let s4 := s3.set t (.run 0 ((autoInner r corr B).map Out.got) 0 .no)
  have hsteps4 : Steps (autoObj r corr B) (St.init s0) s4 := .step hsteps3 (.inr (.runlock s3 t 0 _ 0 rfl (St.set_same _ t _)))
  let s5 := s4.set t (.run 0 (.rlock (p.map Out.got)) 1 .no)
  have hsteps5 : Steps (autoObj r corr B) (St.init s0) s5 := by
    refine .step hsteps4 (.inr (.rlock s4 t 0 _ 0 rfl ?_ rfl))
    refine (St.set_same _ t _).trans ?_
    rw [hp]; rfl
  have other : ∀ y, y ≠ t → s5.thr y = .idle := by
    intro y hy
    have := fun (s : St T (Call K Unit) (AutoMem K) (Out (Except Err (XF K)))) x => St.set_ne s hy x
    simp only [s5, s4, s3, s2, this]
    simp only [s1, this]
    rfl
  obtain ⟨s', h1, h2, h3, h4, h5⟩ := stuck_from (obj := autoObj r corr B) (s := s5) (t := t) (u := u) htu (w := .push x) rfl (St.set_same _ t _)
    Nat.one_pos (other u (Ne.symm htu)) rfl rfl (p' := _) rfl
  refine ⟨s', hsteps5.trans' h1, h5, h2.deadlock h3 ?_, h2.forever.1, h2.forever.2⟩
  intro y hy hu
  rw [h4 y hy hu]
  exact other y hy

/-- Without a call that writes there is no deadlock. Here too the client reads the one message as the other. -/
theorem C60_readers_auto_partial (h : B.OK r corr lag window) {s0 : AutoMem K} (h0 : NewAuto corr lag window s0) {s : St T _ _ _}
    (hs : Steps (fun c => (autoObj r corr B c).map (sameMessage corr)) (St.init s0) s) (hd : Deadlock s) : WriterInProgress s := by
  have hh : ∀ lin q, SeqRun (fun m => ((autoObj r corr B m).map (sameMessage corr)).run) s0 lin q →
      ∀ m, ((autoObj r corr B m).map (sameMessage corr)).run q ≠ .hang := by
    intro lin q hr m
    have hq := (auto_sections r h).stable.seqRun hr h0.aok.1
    have := (auto_quiet (r := r) (corr := corr) (window := window)).sem m hq
    rw [autoObj_map_run h]
    rcases hp : (autoMethods r corr lag window).sem m q with y | _ | _
    · simp
    · simp
    · rw [hp] at this; exact this.elim
  obtain ⟨t, u, _, id, m, ⟨p, hp⟩, hi⟩ := deadlock_stuck (auto_sections r h) h0.aok.1 hh hs hd
  refine ⟨id, u, m, fun v hv => ?_, hi⟩
  subst hv
  have : (autoObj r corr B (.get v)).map (sameMessage corr) = ((autoValue r corr B).map Out.got).map (sameMessage corr) := rfl
  rw [this, autoValue_eq] at hp
  cases hp

/-- The metric after one `Push` (lag 0). -/
example : ∃ s : AutoMem ℚ, (autoMethods id false 0 0).push (autoStart false) 1 = .val (s, none) ∧ s.core.count ≠ 0 :=
  ⟨_, rfl, by decide +kernel⟩

end Verif.Props
