import Verif.Proofs.Objects
import Verif.Proofs.Quiet
import Verif.Proofs.LockedStatements

/-! # Autocov and Autocorr shared by goroutines

`Value` is two critical sections. -/

namespace Verif.Locks
open Verif Verif.Spec Prog

set_option linter.unusedSectionVars false

/-! ## Programs -/

namespace Prog
variable {σ β γ δ : Type}

theorem bind_assoc (p : Prog σ β) (f : β → Prog σ γ) (g : γ → Prog σ δ) : (p.bind f).bind g = p.bind fun b => (f b).bind g := by
  induction p with
  | ret b => rfl
  | act a k ih => exact congrArg _ (funext ih)
  | rlock p ih => exact congrArg _ ih
  | runlock p ih => exact congrArg _ ih
  | lock p ih => exact congrArg _ ih
  | unlock p ih => exact congrArg _ ih

variable {K : Type}

theorem onCore_bind (p : Prog (Joint.Core K) β) (g : β → Prog (Joint.Core K) γ) : (p.bind g).onCore = p.onCore.bind fun b => (g b).onCore := by
  induction p with
  | ret b => rfl
  | act a k ih => exact congrArg _ (funext fun s : AutoMem K => ih s.core)
  | rlock p ih => exact congrArg _ ih
  | runlock p ih => exact congrArg _ ih
  | lock p ih => exact congrArg _ ih
  | unlock p ih => exact congrArg _ ih

theorem onCore_rlocked (p : Prog (Joint.Core K) β) : (rlocked p).onCore = rlocked p.onCore := by
  show (Prog.rlock _).onCore = _
  simp only [onCore, onCore_bind]
  rfl

theorem ReadOnly.onCore {p : Prog (Joint.Core K) β} (h : p.ReadOnly) : p.onCore.ReadOnly := by
  induction h with
  | ret b => exact .ret b
  | @act f k hf _ ih =>
    refine .act ?_ fun s => ih s.core
    intro s s' e
    rcases hs : f s.core with c | _ | _ <;> rw [hs] at e <;> cases e
    rw [hf _ _ hs]

theorem Plain.onCore {p : Prog (Joint.Core K) β} (h : p.Plain) : p.onCore.Plain := by
  induction h with
  | ret b => exact .ret b
  | act _ ih => exact .act fun s => ih s.core

theorem Reads.onCore {p : Prog (Joint.Core K) β} {lo d : Nat} (h : Reads lo d p) : Reads lo d p.onCore := by
  induction h with
  | ret b => exact .ret b
  | @act d f k hd hf _ ih =>
    refine .act hd ?_ fun s => ih s.core
    intro s s' e
    rcases hs : f s.core with c | _ | _ <;> rw [hs] at e <;> cases e
    rw [hf _ _ hs]
  | rlock hd _ ih => exact .rlock hd ih
  | runlock _ ih => exact .runlock ih

theorem run_onCore (p : Prog (Joint.Core K) β) (s : AutoMem K) :
    p.onCore.run s = (do let x ← p.run s.core; pure ({ s with core := x.1 }, x.2)) := by
  induction p generalizing s with
  | ret b => rfl
  | act f k ih =>
    simp only [onCore, run]
    rcases f s.core with c | _ | _
    · exact ih s.core { s with core := c }
    · rfl
    · rfl
  | rlock p ih => exact ih s
  | runlock p ih => exact ih s
  | lock p ih => exact ih s
  | unlock p ih => exact ih s

theorem Computes.onCore {p : Prog (Joint.Core K) β} {v : Joint.Core K → β} (h : p.Computes v) : p.onCore.Computes fun s => v s.core := by
  intro s
  rw [run_onCore, h]; rfl

end Prog

/-! ## Sections -/

section sections
variable {M σ β γ : Type} {obj : M → Prog σ β} {m : M}

theorem sect_of_crit {Q : σ → Prop} {p : Prog σ β} (h : p.Crit) (hrun : ∀ s, Q s → p.run s = (obj m).run s) : Sect obj m Q p := by
  cases h with
  | ret b => exact .ret b fun s hs => (hrun s hs).symm
  | rlock hr => exact .rlock (fun s _ => hr.section s) hrun
  | lock hw => exact .lock hw hrun

theorem Prog.ReadOnly.section_bind {p : Prog σ γ} (h : p.ReadOnly) {s : σ} {d : Nat} (hd : 0 < d) {g : γ → Prog σ β}
    (hg : ∀ b, p.run s = .val (s, b) → Section obj m s d (g b)) : Section obj m s d (p.bind g) := by
  induction h with
  | ret b => exact hg b rfl
  | act hf _ ih =>
    refine .act hd hf fun e => ih s fun b hb => hg b ?_
    simp only [run, e]
    exact hb

end sections

/-! ## The metric -/

section auto
variable {K : Type} [Field K] [LinearOrder K] {r : K → K} {corr : Bool} {lag window : Int} {B : AutoBody K}

/-- The second section. -/
abbrev autoInner (r : K → K) (corr : Bool) (B : AutoBody K) : Prog (AutoMem K) (Except Err (XF K)) :=
  (if corr then corrProg r B.core else covProg B.core).onCore

/-- `Value` in normal form. -/
theorem autoValue_eq : autoValue r corr B = .rlock (B.core.count.onCore.bind fun n => .runlock
    (if n = 0 then .ret (.error "Not enough values seen") else autoInner r corr B)) := by
  unfold autoValue jointCount
  rw [onCore_rlocked]
  show Prog.rlock ((B.core.count.onCore.bind _).bind _) = _
  rw [bind_assoc]
  rfl

theorem autoInner_crit (h : B.core.OK) : (autoInner r corr B).Crit := by
  have := jointValue_crit (r := r) h (if corr then .corr 0 else .cov 0)
  cases corr with
  | true =>
    cases this with
    | rlock hr => exact .rlock hr.onCore
  | false =>
    cases this with
    | rlock hr => exact .rlock hr.onCore

theorem autoInner_rlock : ∃ p, autoInner r corr B = .rlock (.rlock p) := by
  cases corr
  · exact ⟨_, rfl⟩
  · exact ⟨_, rfl⟩

theorem autoInner_computes (h : B.core.OK) : (autoInner r corr B).Computes fun s =>
    if corr then Joint.Metric.corrValue r (some s.core) else Joint.Metric.covValue (some s.core) := by
  cases corr with
  | true => exact (corr_computes h).onCore
  | false => exact (cov_computes h).onCore

theorem count_computes (h : B.core.OK) : B.core.count.onCore.Computes fun s => s.core.count := by
  refine Computes.onCore ?_
  intro c; exact h.count_run c

theorem autoValue_computes (h : B.core.OK) : (autoValue r corr B).Computes fun s => Joint.Auto.value r (s.auto corr lag window) := by
  intro s
  rw [autoValue_eq]
  show (Prog.bind _ _).run s = _
  rw [run_bind, count_computes h s, Go.val_bind]
  show Prog.run (if _ then _ else _) s = _
  simp only [Joint.Auto.value, AutoMem.auto]
  by_cases hn : s.core.count = 0
  · rw [if_pos hn, if_pos hn]; rfl
  · rw [if_neg hn, if_neg hn, autoInner_computes h s]
    rfl

theorem autoObj_run (h : B.OK r corr lag window) (c : Call K Unit) (s : AutoMem K) :
    (autoObj r corr B c).run s = (autoMethods r corr lag window).sem c s := by
  cases c with
  | push x =>
    show ((locked (B.push x)).map _).run s = _
    rw [run_map, run_locked, h.push_run]; rfl
  | get v =>
    show ((autoValue r corr B).map _).run s = _
    rw [run_map, autoValue_computes (lag := lag) (window := window) h.core s]; rfl
  | clear =>
    show ((locked B.clear).map _).run s = _
    rw [run_map, run_locked, h.clear_run]; rfl

/-- The client looks at the results through `f`. -/
theorem autoObj_map_run (h : B.OK r corr lag window) {γ : Type} (f : Out (Except Err (XF K)) → γ) (c : Call K Unit) (s : AutoMem K) :
    ((autoObj r corr B c).map f).run s = (do let x ← (autoMethods r corr lag window).sem c s; pure (x.1, f x.2)) := by
  rw [run_map, autoObj_run h]

/-- The first section, and what follows in a state of `Q`. -/
theorem value_sect {M γ : Type} {obj : M → Prog (AutoMem K) γ} {m : M} (h : B.OK r corr lag window) {f : Out (Except Err (XF K)) → γ}
    (hm : obj m = ((autoValue r corr B).map .got).map f) {Q0 Q : AutoMem K → Prop} (hQ : Stable obj Q)
    (h1 : ∀ s, Q0 s → s.core.count ≠ 0 → Q s) (h2 : ∀ s, Q s → (((autoInner r corr B).map .got).map f).run s = (obj m).run s) :
    Sect obj m Q0 (obj m) := by
  have e : obj m = .rlock (B.core.count.onCore.bind fun n => .runlock
      (((if n = 0 then .ret (.error "Not enough values seen") else autoInner r corr B : Prog _ _).map .got).map f)) := by
    rw [hm, autoValue_eq]
    simp only [Prog.map, Prog.bind, bind_assoc]
  have key : Sect obj m Q0 (.rlock (B.core.count.onCore.bind fun n => .runlock
      (((if n = 0 then .ret (.error "Not enough values seen") else autoInner r corr B : Prog _ _).map .got).map f))) := by
    refine .rlock (fun s hs => ?_) fun s _ => by rw [e]; rfl
    refine h.core.count_read.onCore.section_bind Nat.one_pos fun n hn => .runlock ?_
    rw [count_computes h.core s] at hn
    cases hn
    by_cases hc : s.core.count = 0
    · rw [if_pos hc]; exact .ret _
    · rw [if_neg hc]
      refine .again hQ (h1 s hs hc) ?_ (sect_of_crit (((autoInner_crit h.core).map _).map _) h2)
      intro p' hp
      obtain ⟨p, hp'⟩ := autoInner_rlock (r := r) (corr := corr) (B := B)
      rw [hp'] at hp
      cases hp
  rw [← e] at key
  exact key

theorem other_crit (h : B.OK r corr lag window) {c : Call K Unit} (hc : ∀ v, c ≠ .get v) : (autoObj r corr B c).Crit := by
  cases c with
  | push x => exact (Crit.locked (h.push_plain x)).map _
  | clear => exact (Crit.locked h.clear_plain).map _
  | get v => exact absurd rfl (hc v)

end auto

end Verif.Locks

/-! ## The count stays positive -/

namespace Verif.Joint
variable {K : Type} [Field K]

theorem pushAdd_count (c : Core K) (xs : List K) : (pushAdd c xs).Sat fun r => r.1.count = c.count + 1 := by
  unfold pushAdd
  cases c.decay with
  | none =>
    simp only [add]
    have h := updateAll_sat (addRule (((c.count + 1 : Int) : K))) (List.zipWith (fun x m => x - m) xs c.means) c.sums c.tuples c.newSums
    rcases e : updateAll (addRule (((c.count + 1 : Int) : K))) (List.zipWith (fun x m => x - m) xs c.means) c.sums c.tuples c.newSums with ⟨ns, er⟩ | _ | _
    · cases er <;> exact rfl
    · trivial
    · rw [e] at h; exact h
  | some d =>
    simp only [addDecay]
    have h := updateAll_sat (decayRule (if c.count + 1 = 1 then 1 else d)) (List.zipWith (fun x m => x - m) xs c.means) c.sums c.tuples c.newSums
    rcases e : updateAll (decayRule (if c.count + 1 = 1 then 1 else d)) (List.zipWith (fun x m => x - m) xs c.means) c.sums c.tuples c.newSums with ⟨ns, er⟩ | _ | _
    · cases er <;> exact rfl
    · trivial
    · rw [e] at h; exact h

theorem remove_count (c : Core K) (xs : List K) : (remove c xs).Sat fun r => r.1.count = c.count - 1 ∧ (r.2 ≠ none → 0 < c.count - 1) := by
  unfold remove
  simp only []
  by_cases hc : c.count - 1 > 0
  · rw [if_pos hc]
    generalize List.zipWith (fun x m => m - (x - m) / ((c.count - 1 : Int) : K)) xs c.means = means
    generalize List.zipWith (fun x m => x - m) xs means = delta
    have h := removeAll_sat (removeRule (((c.count - 1 : Int) : K))) delta c.tuples c.sums c.newSums
    rcases e : removeAll (removeRule (((c.count - 1 : Int) : K))) delta c.tuples c.sums c.newSums with v | _ | _
    · exact ⟨rfl, fun _ => hc⟩
    · trivial
    · rw [e] at h; exact h
  · rw [if_neg hc]; exact ⟨rfl, fun h => absurd rfl h⟩

/-- A `Push` never leaves a core empty that was not. -/
theorem push_count {c : Core K} (h : QOK c) (xs : List K) : (push c xs).Sat fun r => c.count ≤ r.1.count ∨ 1 ≤ r.1.count := by
  unfold push
  by_cases hx : xs.length ≠ c.means.length
  · rw [if_pos hx]; exact .inl le_rfl
  rw [if_neg hx]
  by_cases hw : c.window ≠ 0
  · rw [if_pos hw]
    have hput : ∀ c' : Core K, c.count - 1 ≤ c'.count → RingOK c.window c'.queue → (c'.queue.items.length : Int) < c.window →
        (pushPut c' xs).Sat fun r => c.count ≤ r.1.count ∨ 1 ≤ r.1.count := by
      intro c' h1 h2 h3
      obtain ⟨e, h4⟩ := h2.put hw h3 xs
      unfold pushPut
      rw [e]
      refine (pushAdd_count _ xs).mono fun r hr => ?_
      rw [hr]
      show c.count ≤ c'.count + 1 ∨ _
      omega
    unfold evict
    by_cases hl : (c.queue.len : Int) = c.window
    · rw [if_pos hl]
      obtain ⟨y, ys, hi, hg, h2, h3⟩ := h.2.get hw hl
      rw [hg]
      have hr := remove_sat { c with queue := { c.queue with items := ys } } y
      have hn := remove_count { c with queue := { c.queue with items := ys } } y
      simp only []
      rcases e : remove { c with queue := { c.queue with items := ys } } y with ⟨c', er⟩ | _ | _
      · rw [e] at hr hn
        have hn1 : c'.count = c.count - 1 := hn.1
        cases er with
        | none =>
          refine hput c' (by omega) ?_ ?_
          · rw [hr.1]; exact h2
          · rw [hr.1]; exact h3
        | some er =>
          have hn2 : 0 < c.count - 1 := hn.2 (by simp)
          show c.count ≤ c'.count ∨ 1 ≤ c'.count
          omega
      · trivial
      · rw [e] at hr; exact hr
    · rw [if_neg hl]
      refine hput c (by omega) h.2 ?_
      have := (h.2 hw).2.1
      unfold Ring.len at hl
      omega
  · rw [if_neg hw]
    refine (pushAdd_count c xs).mono fun r hr => ?_
    rw [hr]; omega

/-- What is needed for the methods of the metric not to block. -/
def AOK (lag : Int) (queue : Ring K) (c : Core K) : Prop := QOK c ∧ 0 ≤ lag ∧ RingOK lag queue

theorem auto_push_sat {corr : Bool} {lag window : Int} {queue : Ring K} {c : Core K} (h : AOK lag queue c) (x : K) {P : Core K → Prop} (h0 : P c)
    (hP : ∀ xs, (push c xs).Sat fun r => P r.1) : (Auto.push ⟨corr, lag, window, queue, some c⟩ x).Sat fun r =>
      ∃ c', r.1.core = some c' ∧ AOK lag r.1.queue c' ∧ P c' := by
  obtain ⟨h1, h2, h3⟩ := h
  unfold Auto.push
  simp only []
  by_cases hl : lag = 0
  · rw [if_pos hl]
    have hp := push_sat h1 [x, x]
    have hq := hP [x, x]
    rcases e : push c [x, x] with ⟨c', er⟩ | _ | _
    · rw [e] at hp hq
      cases er <;> exact ⟨c', rfl, ⟨hp, h2, h3⟩, hq⟩
    · trivial
    · rw [e] at hp; exact hp
  rw [if_neg hl]
  obtain ⟨g1, g2, g3⟩ := h3 hl
  by_cases hf : (queue.len : Int) ≥ lag
  · rw [if_pos hf]
    have hlen : (queue.len : Int) = lag := by unfold Ring.len at hf ⊢; omega
    obtain ⟨y, ys, hi, hg, k1, k2⟩ := h3.get hl hlen
    unfold Auto.pair
    rw [hg]
    simp only []
    have hp := push_sat h1 [x, y]
    have hq := hP [x, y]
    rcases e : push c [x, y] with ⟨c', er⟩ | _ | _
    · rw [e] at hp hq
      cases er with
      | some er => exact ⟨c', rfl, ⟨hp, h2, k1⟩, hq⟩
      | none =>
        unfold Auto.put
        obtain ⟨e', k3⟩ := k1.put hl k2 x
        simp only []
        rw [e']
        exact ⟨c', rfl, ⟨hp, h2, k3⟩, hq⟩
    · trivial
    · rw [e] at hp; exact hp
  · rw [if_neg hf]
    unfold Auto.put
    obtain ⟨e', k3⟩ := h3.put hl (by unfold Ring.len at hf; omega) x
    simp only []
    rw [e']
    exact ⟨c, rfl, ⟨h1, h2, k3⟩, h0⟩

end Verif.Joint

namespace Verif.Locks
open Verif Verif.Spec Prog

section auto
variable {K : Type} [Field K] [LinearOrder K] {r : K → K} {corr : Bool} {lag window : Int} {B : AutoBody K}

theorem auto_push_mem {s : AutoMem K} (h : Joint.AOK lag s.queue s.core) (x : K) {P : Joint.Core K → Prop} (h0 : P s.core)
    (hP : ∀ xs, (Joint.push s.core xs).Sat fun r => P r.1) :
    ((autoMethods r corr lag window).push s x).Sat fun t => Joint.AOK lag t.1.queue t.1.core ∧ P t.1.core := by
  refine (Joint.auto_push_sat h x h0 hP).bind fun a ha => ?_
  obtain ⟨c', e, h1, h2⟩ := ha
  show Joint.AOK lag a.1.queue (a.1.core.getD s.core) ∧ P (a.1.core.getD s.core)
  rw [e]
  exact ⟨h1, h2⟩

theorem auto_quiet : Quiet (autoMethods r corr lag window) fun s : AutoMem K => Joint.AOK lag s.queue s.core where
  push s x h := (auto_push_mem h x (P := fun _ => True) trivial fun xs => (Joint.push_sat h.1 xs).mono fun _ _ => trivial).mono fun _ h => h.1
  get s v _ := trivial
  clear s h := ⟨⟨h.1.1, RingOK.new h.1.1⟩, h.2.1, RingOK.new h.2.1⟩

/-- The invariant of the calls, as a set of states no method leaves. -/
theorem stable_of_sem {A V R σ : Type} {D : Methods σ A V R} {obj : Call A V → Prog σ (Out R)} {J : σ → Prop} (h : Quiet D J)
    (hrun : ∀ c s, (obj c).run s = D.sem c s) : Stable obj J := by
  intro c s s' b hs e
  rw [hrun] at e
  exact (h.sem c hs).of_val e

/-- A new core is empty. -/
theorem _root_.Verif.Joint.newCore_count [GoOrd K] {c : Joint.Config K} {s : Joint.Core K} (h : Joint.newCore c = .val (.ok s)) : s.count = 0 := by
  unfold Joint.newCore at h
  rcases hv : Joint.validate 0 1 (Joint.setDefaults c) with _ | e
  · rw [hv] at h
    simp only [Joint.mk] at h
    rcases hi : Joint.initSums ((Joint.setDefaults c).sums.getD []) (fun _ => none : Joint.Map K) with m | _ | _
    · rw [hi] at h
      cases h
      rfl
    · rw [hi] at h; cases h
    · rw [hi] at h; cases h
  · rw [hv] at h; cases h

/-- A new metric. -/
theorem auto_new_ok {a0 a : Joint.Auto K} [GoOrd K] (h : Joint.Auto.new corr lag window = .ok a0) (h' : a0.init = .val (a, none)) :
    ∃ c, a.core = some c ∧ Joint.AOK lag a.queue c ∧ c.count = 0 := by
  unfold Joint.Auto.new at h
  by_cases hl : lag < 0
  · rw [if_pos hl] at h; cases h
  rw [if_neg hl] at h
  cases h
  unfold Joint.Auto.init at h'
  simp only [] at h'
  rcases e : Joint.newCore (Joint.Auto.kind (⟨corr, lag, window, Ring.new lag.toNat, none⟩ : Joint.Auto K)).config with (e1 | c) | _ | _ <;>
    rw [e] at h' <;> cases h'
  exact ⟨c, rfl, ⟨Joint.newCore_qok e, not_lt.1 hl, RingOK.new (not_lt.1 hl)⟩, Joint.newCore_count e⟩

end auto

/-! ## The two divisions into actions -/

section bodies
variable {K : Type} [Field K] [LinearOrder K] {r : K → K} {corr : Bool} {lag window : Int}

theorem autoSingle_ok : (autoSingle r corr lag window : AutoBody K).OK r corr lag window where
  core := jointSingle_ok
  push_plain _ := plain_call _ _
  push_run x s := run_call _ _ s
  clear_plain := .act fun _ => .ret _
  clear_run _ := rfl

theorem autoSteps_ok : (autoSteps lag : AutoBody K).OK r corr lag window where
  core := jointSingle_ok
  push_plain x := by
    show Prog.Plain (if lag = 0 then _ else _)
    by_cases hl : lag = 0
    · rw [if_pos hl]; exact plain_call _ _
    rw [if_neg hl]
    refine .act fun s => ?_
    show Prog.Plain (if _ then _ else _)
    by_cases hn : (s.queue.len : Int) ≥ lag
    · rw [if_pos hn]
      refine (plain_call _ _).bind fun g => ?_
      cases g with
      | error e => exact .ret _
      | ok y =>
        refine (plain_call _ _).bind fun e => ?_
        cases e with
        | some e => exact .ret _
        | none => exact plain_call _ _
    · rw [if_neg hn]; exact plain_call _ _
  push_run x s := by
    have hcore : ∀ (s : AutoMem K) (x y : K), (autoCore x y).run s = (match Joint.push s.core [x, y] with
        | .panic => .panic
        | .hang => .hang
        | .val (c, some e) => .val ({ s with core := c }, some ("error pushing to core: " ++ e))
        | .val (c, none) => .val ({ s with core := c }, none)) := fun s x y => run_call _ _ s
    have hput : ∀ (s : AutoMem K) (x : K), (autoPut x).run s = (match s.queue.put x with
        | .panic => .panic
        | .hang => .hang
        | .val (.error e) => .val (s, some ("error pushing to lag queue: " ++ e))
        | .val (.ok q) => .val ({ s with queue := q }, none)) := fun s x => run_call _ _ s
    have hget : ∀ s : AutoMem K, (autoGet (K := K)).run s = (match s.queue.get with
        | .panic => .panic
        | .hang => .hang
        | .val (.error e) => .val (s, .error ("error popping item from lag queue: " ++ e))
        | .val (.ok (tail, q)) => .val ({ s with queue := q }, .ok tail)) := fun s => run_call _ _ s
    have hput' : ∀ (s : AutoMem K) (x : K), (autoPut x).run s = (do
        let a ← Joint.Auto.put (s.auto corr lag window) x
        pure (⟨a.1.queue, a.1.core.getD s.core⟩, a.2)) := by
      intro s x
      rw [hput]
      unfold Joint.Auto.put AutoMem.auto
      rcases s.queue.put x with (e | q) | _ | _ <;> rfl
    show Prog.run (if lag = 0 then _ else _) s = (Joint.Auto.push (s.auto corr lag window) x).bind _
    have eauto : Joint.Auto.push (s.auto corr lag window) x =
        if lag = 0 then
          match Joint.push s.core [x, x] with
          | .panic => .panic
          | .hang => .hang
          | .val (c', some e) => .val (⟨corr, lag, window, s.queue, some c'⟩, some ("error pushing to core: " ++ e))
          | .val (c', none) => .val (⟨corr, lag, window, s.queue, some c'⟩, none)
        else if (s.queue.len : Int) ≥ lag then Joint.Auto.pair (s.auto corr lag window) s.core x
        else Joint.Auto.put (s.auto corr lag window) x := rfl
    rw [eauto]
    by_cases hl : lag = 0
    · rw [if_pos hl, if_pos hl, hcore]
      rcases Joint.push s.core [x, x] with ⟨c, _ | e⟩ | _ | _ <;> rfl
    rw [if_neg hl, if_neg hl]
    show Prog.run (if _ then _ else _) s = _
    by_cases hn : (s.queue.len : Int) ≥ lag
    · rw [if_pos hn, if_pos hn, run_bind, hget]
      unfold Joint.Auto.pair
      simp only [AutoMem.auto]
      rcases hq : s.queue.get with (e | ⟨y, q⟩) | _ | _
      · rfl
      · simp only [Go.val_bind, run_bind, hcore]
        rcases hc : Joint.push s.core [x, y] with ⟨c, _ | e⟩ | _ | _
        · simp only [Go.val_bind]
          rw [hput']
          unfold Joint.Auto.put AutoMem.auto
          rcases q.put x with (e | q') | _ | _ <;> rfl
        · rfl
        · rfl
        · rfl
      · rfl
      · rfl
    · rw [if_neg hn, if_neg hn]
      exact hput' s x
  clear_plain := .act fun _ => .act fun _ => .ret _
  clear_run _ := rfl

end bodies

/-! ## Getting stuck from any state -/

section stuck
variable {T M σ β γ : Type} [DecidableEq T] {obj : M → Prog σ β}

/-- A goroutine with a read lock goes through the body of its section alone. -/
theorem readOnly_steps {p : Prog σ γ} (hp : p.ReadOnly) {g : γ → Prog σ β} {s : St T M σ β} {t : T} {id held : Nat} {w : Wait} {b : γ}
    (hc : s.crashed = false) (e : s.thr t = .run id (p.bind g) held w) (hrun : p.run s.mem = .val (s.mem, b)) :
    Steps obj s (s.set t (.run id (g b) held w)) := by
  have same : ∀ {s : St T M σ β} {x : Thr σ β}, s.thr t = x → s.set t x = s := by
    intro s x h
    show ({ s with thr := _ } : St T M σ β) = s
    rw [← h, Function.update_eq_self]
  induction hp generalizing s with
  | ret b' =>
    cases hrun
    rw [same (show s.thr t = .run id (g b) held w from e)]
    exact .refl _
  | @act f k hf _ ih =>
    have hrun' := hrun
    simp only [run] at hrun
    rcases hs : f s.mem with m | _ | _ <;> rw [hs] at hrun <;> simp only [] at hrun
    · obtain rfl := hf _ _ hs
      have h1 : Step obj s { s.set t (.run id ((k s.mem).bind g) held w) with mem := s.mem } := .inr (.act s t id f _ held w s.mem hc e hs)
      have h2 := @ih s.mem { s.set t (.run id ((k s.mem).bind g) held w) with mem := s.mem } hc (St.set_same s t _) hrun
      have trans : ∀ {a b c : St T M σ β}, Steps obj a b → Steps obj b c → Steps obj a c := by
        intro a b c hab hbc
        induction hbc with
        | refl => exact hab
        | step _ h ih => exact .step ih h
      have := trans (.step (.refl s) h1) h2
      have e2 : ({ s.set t (.run id ((k s.mem).bind g) held w) with mem := s.mem } : St T M σ β).set t (.run id (g b) held w) =
          s.set t (.run id (g b) held w) := by
        simp [St.set]
      rw [e2] at this
      exact this
    · cases hrun
    · cases hrun

theorem Steps.trans' {a b c : St T M σ β} (hab : Steps obj a b) (hbc : Steps obj b c) : Steps obj a c := by
  induction hbc with
  | refl => exact hab
  | step _ h ih => exact .step ih h

/-- A reader in front of a nested `RLock` and a writer that comes along. -/
theorem stuck_from {s : St T M σ β} {t u : T} (htu : t ≠ u) {id held : Nat} {p p' : Prog σ β} {w : M} (hc : s.crashed = false)
    (et : s.thr t = .run id (.rlock p) held .no) (hh : 0 < held) (eu : s.thr u = .idle) (hp : s.pending = none) (ha : s.active = false)
    (hw : obj w = .lock p') : ∃ s' : St T M σ β, Steps obj s s' ∧ Stuck t u s' ∧ s'.crashed = false ∧
      (∀ x, x ≠ t → x ≠ u → s'.thr x = s.thr x) ∧ s'.hist = s.hist ++ [.inv s.next u w] := by
  let s3 : St T M σ β := { s.set u (.run s.next (obj w) 0 .no) with hist := s.hist ++ [.inv s.next u w], next := s.next + 1 }
  let s4 : St T M σ β := { s3 with pending := some u }
  let s5 : St T M σ β := s4.set t (.run id (.rlock p) held .queued)
  have e3 : s3.thr u = .run s.next (.lock p') 0 .no := by rw [← hw]; exact St.set_same s u _
  have e4 : s4.thr t = .run id (.rlock p) held .no := (St.set_ne s htu _).trans et
  have h3 : Steps obj s s3 := .step (.refl _) (.inl (.mk s u w hc eu))
  have h4 : Steps obj s s4 := .step h3 (.inr (.announce s3 u s.next p' 0 hc e3 hp))
  have h5 : Steps obj s s5 := .step h4 (.inr (.sleep s4 t id p held hc e4 (by simp [s4])))
  refine ⟨s5, h5, ⟨⟨id, p, held, hh, St.set_same s4 t _⟩, ⟨s.next, p', (St.set_ne s4 (Ne.symm htu) _).trans e3⟩, rfl, ha⟩, hc, ?_, rfl⟩
  intro x hx hu
  exact (St.set_ne s4 hx _).trans (St.set_ne s hu _)

end stuck

end Verif.Locks
