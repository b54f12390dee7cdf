import Verif.Proofs.Locks
import Mathlib.SetTheory.Ordinal.Rank
import Mathlib.Order.WellFoundedSet
import Mathlib.Order.Fin.Basic
import Mathlib.Data.Fintype.Basic

/-! # Deadlock: nested read locks can, single ones cannot -/

namespace Verif.Locks
open Verif Verif.Spec Prog

set_option linter.unusedSectionVars false

variable {T M σ β γ : Type} [DecidableEq T]

/-- No `RLock` inside. -/
inductive Prog.NoR : Prog σ β → Prop where
  | ret (b : β) : NoR (ret b)
  | act {f : σ → Go σ} {k : σ → Prog σ β} : (∀ s, NoR (k s)) → NoR (act f k)
  | runlock {p : Prog σ β} : NoR p → NoR (runlock p)
  | lock {p : Prog σ β} : NoR p → NoR (lock p)
  | unlock {p : Prog σ β} : NoR p → NoR (unlock p)

/-- At most one `RLock`, at the beginning. -/
def Prog.Flat (p : Prog σ β) : Prop := p.NoR ∨ ∃ p', p = .rlock p' ∧ p'.NoR

theorem Prog.NoR.bind {p : Prog σ β} (h : p.NoR) {g : β → Prog σ γ} (hg : ∀ b, (g b).NoR) : (p.bind g).NoR := by
  induction h with
  | ret b => exact hg b
  | act _ ih => exact .act ih
  | runlock _ ih => exact .runlock ih
  | lock _ ih => exact .lock ih
  | unlock _ ih => exact .unlock ih

theorem Prog.Plain.noR {p : Prog σ β} (h : p.Plain) : p.NoR := by
  induction h with
  | ret b => exact .ret b
  | act _ ih => exact .act ih

theorem Prog.ReadOnly.plain {p : Prog σ β} (h : p.ReadOnly) : p.Plain := by
  induction h with
  | ret b => exact .ret b
  | act _ _ ih => exact .act ih

theorem Prog.Flat.locked {p : Prog σ β} (h : p.Plain) : (Prog.locked p).Flat := .inl (.lock (h.noR.bind fun b => .unlock (.ret b)))

theorem Prog.Flat.rlocked {p : Prog σ β} (h : p.Plain) : (Prog.rlocked p).Flat := .inr ⟨_, rfl, h.noR.bind fun b => .runlock (.ret b)⟩

theorem Prog.Flat.map {p : Prog σ β} (h : p.Flat) (f : β → γ) : (p.bind fun b => Prog.ret (f b)).Flat := by
  rcases h with h | ⟨p', rfl, h⟩
  · exact .inl (h.bind fun b => .ret _)
  · exact .inr ⟨_, rfl, h.bind fun b => .ret _⟩

/-- A goroutine that has a read lock has no `RLock` before it; sleepers wait for an announced writer. -/
structure FlatInv (s : St T M σ β) : Prop where
  flat : ∀ t id p held w, s.thr t = .run id p held w → p.Flat ∧ (0 < held → p.NoR)
  queued : ∀ t id p held, s.thr t = .run id p held .queued → s.pending ≠ none

theorem Prog.Flat.act {f : σ → Go σ} {k : σ → Prog σ β} (h : (Prog.act f k).Flat) (s : σ) : (k s).NoR := by
  rcases h with h | ⟨p', h, _⟩
  · cases h with | act h => exact h s
  · cases h

theorem Prog.Flat.unlock {p : Prog σ β} (h : (Prog.unlock p).Flat) : p.NoR := by
  rcases h with h | ⟨p', h, _⟩
  · cases h with | unlock h => exact h
  · cases h

theorem Prog.Flat.lock {p : Prog σ β} (h : (Prog.lock p).Flat) : p.NoR := by
  rcases h with h | ⟨p', h, _⟩
  · cases h with | lock h => exact h
  · cases h

theorem Prog.Flat.runlock {p : Prog σ β} (h : (Prog.runlock p).Flat) : p.NoR := by
  rcases h with h | ⟨p', h, _⟩
  · cases h with | runlock h => exact h
  · cases h

theorem Prog.Flat.rlock {p : Prog σ β} (h : (Prog.rlock p).Flat) : p.NoR := by
  rcases h with h | ⟨p', h, h'⟩
  · cases h
  · cases h; exact h'

theorem Prog.NoR.flat {p : Prog σ β} (h : p.NoR) : p.Flat := .inl h

/-- One goroutine changes. -/
theorem FlatInv.set {s : St T M σ β} (h : FlatInv s) {t : T} {x : Thr σ β}
    (hx : ∀ id p held w, x = .run id p held w → p.Flat ∧ (0 < held → p.NoR))
    (hq : ∀ id p held, x = .run id p held .queued → s.pending ≠ none) : FlatInv (s.set t x) where
  flat u id p held w e := by
    by_cases hu : u = t
    · subst hu; rw [St.set_same] at e; exact hx _ _ _ _ e
    · rw [St.set_ne s hu] at e; exact h.flat _ _ _ _ _ e
  queued u id p held e := by
    by_cases hu : u = t
    · subst hu; rw [St.set_same] at e; exact hq _ _ _ e
    · rw [St.set_ne s hu] at e; exact h.queued _ _ _ _ e

theorem FlatInv.congr {s s' : St T M σ β} (h : FlatInv s) (ht : s'.thr = s.thr) (hp : s.pending ≠ none → s'.pending ≠ none) : FlatInv s' where
  flat u id p held w e := by rw [ht] at e; exact h.flat _ _ _ _ _ e
  queued u id p held e := by rw [ht] at e; exact hp (h.queued _ _ _ _ e)

/-- The common case: the goroutine goes on with a program without `RLock`. -/
theorem FlatInv.go {s : St T M σ β} (h : FlatInv s) {t : T} {id held : Nat} {p : Prog σ β} (hp : p.NoR) :
    FlatInv (s.set t (.run id p held .no)) := by
  refine h.set ?_ ?_
  · intro id' p' held' w' e
    cases e
    exact ⟨hp.flat, fun _ => hp⟩
  · intro id' p' held' e; cases e

theorem FlatInv.step {obj : M → Prog σ β} (hobj : ∀ m, (obj m).Flat) {s s' : St T M σ β} (h : FlatInv s) (hs : Step obj s s') :
    FlatInv s' := by
  rcases hs with hs | hs
  · cases hs with
    | mk t m hc hi =>
      refine (h.set (t := t) (x := .run s.next (obj m) 0 .no) ?_ ?_).congr rfl (fun h => h)
      · intro id p held w e; cases e; exact ⟨hobj m, fun h => absurd h (by omega)⟩
      · intro id p held e; cases e
  · cases hs with
    | ret t id b held w hc e =>
      refine (h.set (t := t) (x := .idle) ?_ ?_).congr rfl (fun h => h)
      · intro _ _ _ _ e; cases e
      · intro _ _ _ e; cases e
    | act t id f k held w mem' hc e hf =>
      have hk := (h.flat _ _ _ _ _ e).1.act s.mem
      refine (h.set (t := t) (x := .run id (k s.mem) held w) ?_ ?_).congr rfl (fun h => h)
      · intro _ _ _ _ e'; cases e'; exact ⟨hk.flat, fun _ => hk⟩
      · intro _ _ _ e'; cases e'; exact h.queued _ _ _ _ e
    | crash t id f k held w hc e hf => exact h.congr rfl (fun h => h)
    | rlock t id p held hc e hp => exact h.go (h.flat _ _ _ _ _ e).1.rlock
    | sleep t id p held hc e hp =>
      refine h.set ?_ ?_
      · intro _ _ _ _ e'; cases e'; exact h.flat _ _ _ _ _ e
      · intro _ _ _ e'; exact hp
    | resume t id p held hc e => exact h.go (h.flat _ _ _ _ _ e).1.rlock
    | runlock t id p held hc e => exact h.go (h.flat _ _ _ _ _ e).1.runlock
    | badRunlock t id p hc e => exact h.congr rfl (fun h => h)
    | announce t id p held hc e hp => exact h.congr rfl (fun _ => by simp)
    | acquire t id p held hc e hp hna hnr => exact (h.go (t := t) (id := id) (held := held) (h.flat _ _ _ _ _ e).1.lock).congr rfl (fun h => h)
    | unlock t id p held hc e ha =>
      have hp := (h.flat _ _ _ _ _ e).1.unlock
      refine ⟨?_, ?_⟩
      · intro u id' p' held' w' e'
        by_cases hu : u = t
        · subst hu
          simp only [if_true] at e'
          cases e'
          exact ⟨hp.flat, fun _ => hp⟩
        · simp only [if_neg hu] at e'
          obtain ⟨w'', e'', _⟩ := Thr.wake_run e'
          exact h.flat _ _ _ _ _ e''
      · intro u id' p' held' e'
        by_cases hu : u = t
        · subst hu
          simp only [if_true] at e'
          cases e'
        · simp only [if_neg hu] at e'
          exfalso
          cases hx : s.thr u with
          | idle => rw [hx] at e'; cases e'
          | run i q h w => rw [hx] at e'; cases w <;> cases e'
    | badUnlock t id p held hc e ha => exact h.congr rfl (fun h => h)

theorem reachable_flat {obj : M → Prog σ β} (hobj : ∀ m, (obj m).Flat) {s0 : σ} {s : St T M σ β} (h : Steps obj (St.init s0) s) :
    FlatInv s := by
  generalize hi : St.init s0 = s1 at h
  induction h with
  | refl =>
    subst hi
    refine ⟨?_, ?_⟩
    · intro _ _ _ _ _ e; cases e
    · intro _ _ _ _ e; cases e
  | step _ hs ih => exact ih.step hobj hs

/-- An action that does not block can be done. -/
theorem act_enabled {s : St T M σ β} {t : T} {id : Nat} {f : σ → Go σ} {k : σ → Prog σ β} {held : Nat} {w : Wait} (hc : s.crashed = false)
    (e : s.thr t = .run id (.act f k) held w) (hf : f s.mem ≠ .hang) : ∃ s', Inner s s' := by
  rcases hf' : f s.mem with m | _ | _
  · exact ⟨_, .act s t id f k held w m hc e hf'⟩
  · exact ⟨_, .crash s t id f k held w hc e hf'⟩
  · exact absurd hf' hf

theorem run_hang {f : σ → Go σ} {k : σ → Prog σ β} {s : σ} (h : (Prog.act f k).run s ≠ .hang) : f s ≠ .hang := by
  intro e
  refine h ?_
  simp only [Prog.run, e]

/-- With single read locks and methods that do not block, some call can always go on. -/
theorem progress {obj : M → Prog σ β} {s0 : σ} {s : St T M σ β} {lin : List (Nat × M × β)} {q : σ}
    (h : Inv obj s0 s lin q) (hF : FlatInv s) (hh : ∀ m, (obj m).run q ≠ .hang) (hc : s.crashed = false) {t : T} (ht : s.thr t ≠ .idle) :
    ∃ s', Inner s s' := by
  cases ha : s.active with
  | true =>
    -- the writer goes on
    obtain ⟨u, hu⟩ := Option.ne_none_iff_exists'.1 (h.own ha)
    cases e : s.thr u with
    | idle =>
      have := h.thr u
      rw [e] at this
      exact absurd hu this.1
    | run id p held w =>
      obtain ⟨h1, h2, m, hm, hph⟩ := h.at e
      cases hph with
      | start hQ hq hp hl hid hpd hww => exact absurd (hpd hu).1 (by rw [ha]; simp)
      | read hid hp => exact absurd hu hp
      | fin b hb hp => exact absurd hu hp
      | write hid hp ha' hwr hrun =>
        cases hwr with
        | unlock b => exact ⟨_, .unlock s u id _ _ hc e ha⟩
        | act hk => exact act_enabled hc e (run_hang (by rw [hrun]; exact hh m))
  | false =>
    have hmq := h.mem ha
    by_cases hr : ∃ u, (s.thr u).reading
    · -- a reader goes on
      obtain ⟨u, hu⟩ := hr
      cases e : s.thr u with
      | idle => rw [e] at hu; exact hu.elim
      | run id p held w =>
        rw [e] at hu
        obtain ⟨h1, h2, m, hm, hph⟩ := h.at e
        have hfl := hF.flat _ _ _ _ _ e
        cases hph with
        | start hQ hq hp hl hid hpd hww =>
          rcases hu with hu | rfl
          · exact absurd hu (by omega)
          · obtain ⟨p', rfl⟩ := hww (by simp)
            exact ⟨_, .resume s u id p' _ hc e⟩
        | write => rcases hu with hu | hu
                   · exact absurd hu (by omega)
                   · cases hu
        | fin => rcases hu with hu | hu
                 · exact absurd hu (by omega)
                 · cases hu
        | read hid hp hh' hrd hrun hww =>
          have hnr := hfl.2 hh'
          have hw : w = .no := by
            by_contra hw
            obtain ⟨p', rfl⟩ := hww hw
            cases hnr
          subst hw
          cases hrd with
          | ret b => exact absurd hh' (by omega)
          | again => exact absurd hh' (by omega)
          | act hd hf hk => exact act_enabled hc e (run_hang (by rw [hmq, hrun]; exact hh m))
          | rlock => cases hnr
          | runlock hrd => exact ⟨_, .runlock s u id _ _ hc e⟩
    · -- nobody reads
      have hnr : ∀ u, ¬ (s.thr u).reading := fun u hu => hr ⟨u, hu⟩
      have hwriter : s.pending ≠ none → ∃ s', Inner s s' := by
        intro hp
        obtain ⟨u, hu⟩ := Option.ne_none_iff_exists'.1 hp
        cases e : s.thr u with
        | idle =>
          have := h.thr u
          rw [e] at this
          exact absurd hu this.1
        | run id p held w =>
          obtain ⟨h1, h2, m, hm, hph⟩ := h.at e
          cases hph with
          | start hQ hq hp hl hid hpd hww =>
            obtain ⟨_, p', rfl⟩ := hpd hu
            have hw : w = .no := by
              by_contra hw
              obtain ⟨p'', hp''⟩ := hww hw
              cases hp''
            subst hw
            exact ⟨_, .acquire s u id p' _ hc e hu ha hnr⟩
          | read hid hp => exact absurd hu hp
          | fin b hb hp => exact absurd hu hp
          | write hid hp ha' => rw [ha] at ha'; cases ha'
      cases e : s.thr t with
      | idle => exact absurd e ht
      | run id p held w =>
        obtain ⟨h1, h2, m, hm, hph⟩ := h.at e
        cases hph with
        | read hid hp hh' => exact absurd (show (s.thr t).reading by rw [e]; exact .inl hh') (hnr t)
        | write hid hp ha' => rw [ha] at ha'; cases ha'
        | fin b hb hp => exact ⟨_, .ret s t id b _ _ hc e⟩
        | start hQ hq hp hl hid hpd hww =>
          cases hp with
          | ret b => exact ⟨_, .ret s t id b _ _ hc e⟩
          | rlock hrd =>
            cases w with
            | no =>
              by_cases hp : s.pending = none
              · exact ⟨_, .rlock s t id _ _ hc e hp⟩
              · exact ⟨_, .sleep s t id _ _ hc e hp⟩
            | queued => exact hwriter (hF.queued _ _ _ _ e)
            | granted => exact ⟨_, .resume s t id _ _ hc e⟩
          | lock hwr =>
            have hw : w = .no := by
              by_contra hw
              obtain ⟨p'', hp''⟩ := hww hw
              cases hp''
            subst hw
            by_cases hp : s.pending = none
            · exact ⟨_, .announce s t id _ _ hc e hp⟩
            · exact hwriter hp

/-! ## Calls end -/

/-- `p'` is what remains of `p` after one action. -/
inductive Prog.Child : Prog σ β → Prog σ β → Prop where
  | act (f : σ → Go σ) (k : σ → Prog σ β) (s : σ) : Child (k s) (act f k)
  | rlock (p : Prog σ β) : Child p (rlock p)
  | runlock (p : Prog σ β) : Child p (runlock p)
  | lock (p : Prog σ β) : Child p (lock p)
  | unlock (p : Prog σ β) : Child p (unlock p)

/-- A goroutine gets closer to the end of its call. -/
inductive Thr.Less : Thr σ β → Thr σ β → Prop where
  | idle (id : Nat) (p : Prog σ β) (held : Nat) (w : Wait) : Less .idle (.run id p held w)
  | child (id id' : Nat) {p p' : Prog σ β} (held held' : Nat) (w w' : Wait) : p'.Child p → Less (.run id' p' held' w') (.run id p held w)
  | queue (id : Nat) (p : Prog σ β) (held : Nat) : Less (.run id p held .queued) (.run id p held .no)
  | grant (id : Nat) (p : Prog σ β) (held : Nat) : Less (.run id p held .granted) (.run id p held .queued)

theorem Thr.acc_idle : Acc (Thr.Less (σ := σ) (β := β)) .idle := ⟨_, fun y h => by cases h⟩

theorem Thr.acc_run (p : Prog σ β) : ∀ (id held : Nat) (w : Wait), Acc Thr.Less (.run id p held w) := by
  have key : ∀ p : Prog σ β, (∀ p', p'.Child p → ∀ id held w, Acc Thr.Less (.run id p' held w)) →
      ∀ (id held : Nat) (w : Wait), Acc Thr.Less (.run id p held w) := by
    intro p ih id held
    have hg : Acc Thr.Less (.run id p held .granted) := by
      refine ⟨_, fun y h => ?_⟩
      cases h with
      | idle => exact Thr.acc_idle
      | child _ id' _ held' _ w' h => exact ih _ h _ _ _
    have hq : Acc Thr.Less (.run id p held .queued) := by
      refine ⟨_, fun y h => ?_⟩
      cases h with
      | idle => exact Thr.acc_idle
      | child _ id' _ held' _ w' h => exact ih _ h _ _ _
      | grant => exact hg
    intro w
    cases w with
    | granted => exact hg
    | queued => exact hq
    | no =>
      refine ⟨_, fun y h => ?_⟩
      cases h with
      | idle => exact Thr.acc_idle
      | child _ id' _ held' _ w' h => exact ih _ h _ _ _
      | queue => exact hq
  induction p with
  | ret b => exact key _ (fun p' h => by cases h)
  | act f k ih => exact key _ (fun p' h => by cases h with | act _ _ s => exact ih s)
  | rlock p ih => exact key _ (fun p' h => by cases h; exact ih)
  | runlock p ih => exact key _ (fun p' h => by cases h; exact ih)
  | lock p ih => exact key _ (fun p' h => by cases h; exact ih)
  | unlock p ih => exact key _ (fun p' h => by cases h; exact ih)

instance Thr.wf : IsWellFounded (Thr σ β) Thr.Less :=
  ⟨⟨fun x => match x with | .idle => Thr.acc_idle | .run id p held w => Thr.acc_run p id held w⟩⟩

/-- How far a goroutine is from the end of its call. -/
noncomputable def Thr.rank (x : Thr σ β) : Ordinal.{0} := IsWellFounded.rank Thr.Less x

theorem Thr.rank_lt {x y : Thr σ β} (h : Thr.Less x y) : x.rank < y.rank := IsWellFounded.rank_lt_of_rel h

theorem Thr.rank_wake (x : Thr σ β) : x.wake.rank ≤ x.rank := by
  cases x with
  | idle => exact le_rfl
  | run id p held w =>
    cases w with
    | no => exact le_rfl
    | granted => exact le_rfl
    | queued => exact (Thr.rank_lt (.grant id p held)).le

/-- What gets smaller with every transition inside calls. -/
noncomputable def St.rank (s : St T M σ β) : Lex ((T → Ordinal.{0}) × Nat) :=
  toLex (fun t => (s.thr t).rank, (if s.crashed = false then 1 else 0) + (if s.pending = none then 1 else 0))

theorem St.rank_set {s : St T M σ β} {t : T} {x : Thr σ β} {s' : St T M σ β} (hx : Thr.Less x (s.thr t)) (hs : s'.thr = (s.set t x).thr) :
    s'.rank < s.rank := by
  refine Prod.Lex.toLex_lt_toLex.2 (.inl (Pi.lt_def.2 ⟨fun u => ?_, t, ?_⟩))
  · show (s'.thr u).rank ≤ (s.thr u).rank
    rw [hs]
    by_cases hu : u = t
    · subst hu; rw [St.set_same]; exact (Thr.rank_lt hx).le
    · rw [St.set_ne s hu]
  · show (s'.thr t).rank < (s.thr t).rank
    rw [hs, St.set_same]; exact Thr.rank_lt hx

theorem St.rank_crash {s : St T M σ β} (hc : s.crashed = false) : ({ s with crashed := true } : St T M σ β).rank < s.rank := by
  refine Prod.Lex.toLex_lt_toLex.2 (.inr ⟨rfl, ?_⟩)
  simp only [hc, if_true]
  simp

theorem Inner.rank_lt {s s' : St T M σ β} (h : Inner s s') : s'.rank < s.rank := by
  cases h with
  | ret t id b held w hc e => exact St.rank_set (t := t) (x := .idle) (by rw [e]; exact .idle _ _ _ _) rfl
  | act t id f k held w mem' hc e hf => exact St.rank_set (t := t) (x := .run id (k s.mem) held w) (by rw [e]; exact .child _ _ _ _ _ _ (.act f k s.mem)) rfl
  | crash t id f k held w hc e hf => exact St.rank_crash hc
  | rlock t id p held hc e hp => exact St.rank_set (t := t) (by rw [e]; exact .child _ _ _ _ _ _ (.rlock p)) rfl
  | sleep t id p held hc e hp => exact St.rank_set (t := t) (by rw [e]; exact .queue _ _ _) rfl
  | resume t id p held hc e => exact St.rank_set (t := t) (by rw [e]; exact .child _ _ _ _ _ _ (.rlock p)) rfl
  | runlock t id p held hc e => exact St.rank_set (t := t) (by rw [e]; exact .child _ _ _ _ _ _ (.runlock p)) rfl
  | badRunlock t id p hc e => exact St.rank_crash hc
  | announce t id p held hc e hp =>
    refine Prod.Lex.toLex_lt_toLex.2 (.inr ⟨rfl, ?_⟩)
    simp only [hp, if_true]
    simp
  | acquire t id p held hc e hp hna hnr =>
    exact St.rank_set (t := t) (x := .run id p held .no) (by rw [e]; exact .child _ _ _ _ _ _ (.lock p)) rfl
  | unlock t id p held hc e ha =>
    refine Prod.Lex.toLex_lt_toLex.2 (.inl (Pi.lt_def.2 ⟨fun u => ?_, t, ?_⟩))
    · show (if u = t then Thr.run id p held .no else (s.thr u).wake).rank ≤ (s.thr u).rank
      by_cases hu : u = t
      · subst hu; rw [if_pos rfl, e]; exact (Thr.rank_lt (.child _ _ _ _ _ _ (.unlock p))).le
      · rw [if_neg hu]; exact Thr.rank_wake _
    · show (if t = t then Thr.run id p held .no else (s.thr t).wake).rank < (s.thr t).rank
      rw [if_pos rfl, e]; exact Thr.rank_lt (.child _ _ _ _ _ _ (.unlock p))
  | badUnlock t id p held hc e ha => exact St.rank_crash hc

/-- Without new calls there is no endless execution. -/
theorem inner_wf [Finite T] : WellFounded (fun s' s : St T M σ β => Inner s s') :=
  Subrelation.wf (fun h => h.rank_lt) (InvImage.wf St.rank wellFounded_lt)

/-- Calls only. -/
inductive Inners : St T M σ β → St T M σ β → Prop where
  | refl (s : St T M σ β) : Inners s s
  | step {s s' s'' : St T M σ β} : Inners s s' → Inner s' s'' → Inners s s''

theorem Steps.trans {obj : M → Prog σ β} {s s' s'' : St T M σ β} (h : Steps obj s s') (h' : Steps obj s' s'') : Steps obj s s'' := by
  induction h' with
  | refl => exact h
  | step _ hs ih => exact .step ih hs

theorem Inners.steps (obj : M → Prog σ β) {s s' : St T M σ β} (h : Inners s s') : Steps obj s s' := by
  induction h with
  | refl => exact .refl _
  | step _ hs ih => exact .step ih (.inr hs)

theorem Inners.head {s s' s'' : St T M σ β} (h : Inner s s') (h' : Inners s' s'') : Inners s s'' := by
  induction h' with
  | refl => exact .step (.refl _) h
  | step _ hs ih => exact .step ih hs

/-- However the calls are scheduled, they come to an end. -/
theorem exists_end [Finite T] (s : St T M σ β) : ∃ s', Inners s s' ∧ ∀ s'', ¬ Inner s' s'' := by
  refine inner_wf.induction (C := fun s => ∃ s', Inners s s' ∧ ∀ s'', ¬ Inner s' s'') s (fun s ih => ?_)
  by_cases h : ∃ s', Inner s s'
  · obtain ⟨s', hs⟩ := h
    obtain ⟨s'', h1, h2⟩ := ih s' hs
    exact ⟨s'', h1.head hs, h2⟩
  · exact ⟨s, .refl s, fun s' hs => h ⟨s', hs⟩⟩

/-! ## Nested read locks -/

/-- A reader waits for a writer that waits for the reader. -/
structure Stuck (t u : T) (s : St T M σ β) : Prop where
  reader : ∃ id p held, 0 < held ∧ s.thr t = .run id (.rlock p) held .queued
  writer : ∃ id p, s.thr u = .run id (.lock p) 0 .no
  pending : s.pending = some u
  active : s.active = false

/-- Two calls, with a nested read lock and with a write lock, can get stuck. -/
theorem stuck_reachable {obj : M → Prog σ β} {s0 : σ} {t u : T} (htu : t ≠ u) {v w : M} {p p' : Prog σ β} (hv : obj v = .rlock (.rlock p))
    (hw : obj w = .lock p') : ∃ s : St T M σ β, Steps obj (St.init s0) s ∧ Stuck t u s ∧ s.crashed = false ∧
      (∀ x, x ≠ t → x ≠ u → s.thr x = .idle) ∧ s.hist = [.inv 0 t v, .inv 1 u w] := by
  let s0' : St T M σ β := St.init s0
  let s1 : St T M σ β := { s0'.set t (.run 0 (obj v) 0 .no) with hist := [.inv 0 t v], next := 1 }
  let s2 : St T M σ β := s1.set t (.run 0 (.rlock p) 1 .no)
  let s3 : St T M σ β := { s2.set u (.run 1 (obj w) 0 .no) with hist := [.inv 0 t v, .inv 1 u w], next := 2 }
  let s4 : St T M σ β := { s3 with pending := some u }
  let s5 : St T M σ β := s4.set t (.run 0 (.rlock p) 1 .queued)
  have e1 : s1.thr t = .run 0 (.rlock (.rlock p)) 0 .no := by rw [← hv]; exact St.set_same s0' t _
  have e1' : ∀ x, x ≠ t → s1.thr x = .idle := fun x hx => St.set_ne s0' hx _
  have e2 : ∀ x, x ≠ t → s2.thr x = .idle := fun x hx => (St.set_ne s1 hx _).trans (e1' x hx)
  have e3 : s3.thr u = .run 1 (.lock p') 0 .no := by rw [← hw]; exact St.set_same s2 u _
  have e4 : s4.thr t = .run 0 (.rlock p) 1 .no := (St.set_ne s2 htu _).trans (St.set_same s1 t _)
  have h1 : Steps obj s0' s1 := .step (.refl _) (.inl (.mk s0' t v rfl rfl))
  have h2 : Steps obj s0' s2 := .step h1 (.inr (.rlock s1 t 0 _ 0 rfl e1 rfl))
  have h3 : Steps obj s0' s3 := .step h2 (.inl (.mk s2 u w rfl (e2 u (Ne.symm htu))))
  have h4 : Steps obj s0' s4 := .step h3 (.inr (.announce s3 u 1 p' 0 rfl e3 rfl))
  have h5 : Steps obj s0' s5 := .step h4 (.inr (.sleep s4 t 0 p 1 rfl e4 (by simp [s4])))
  refine ⟨s5, h5, ⟨⟨0, p, 1, Nat.one_pos, St.set_same s4 t _⟩, ⟨1, p', (St.set_ne s4 (Ne.symm htu) _).trans e3⟩, rfl, rfl⟩, rfl, ?_, rfl⟩
  intro x hx hu
  exact ((St.set_ne s4 hx _).trans (St.set_ne s2 hu _)).trans (e2 x hx)

/-- Neither of the two can go on. -/
theorem Stuck.reading {t u : T} {s : St T M σ β} (h : Stuck t u s) : (s.thr t).reading := by
  obtain ⟨id, p, held, h, e⟩ := h.reader
  rw [e]; exact .inl h

theorem Stuck.ne {t u : T} {s : St T M σ β} (h : Stuck t u s) : t ≠ u := by
  rintro rfl
  obtain ⟨id, p, held, _, e⟩ := h.reader
  obtain ⟨id', p', e'⟩ := h.writer
  rw [e] at e'; cases e'

/-- They stay where they are, whatever the other goroutines do. -/
theorem Stuck.step {obj : M → Prog σ β} {t u : T} {s s' : St T M σ β} (h : Stuck t u s) (hs : Step obj s s') :
    s'.thr t = s.thr t ∧ s'.thr u = s.thr u ∧ s'.pending = s.pending ∧ s'.active = s.active := by
  obtain ⟨idt, pt, ht, _, et⟩ := h.reader
  obtain ⟨idu, pu, eu⟩ := h.writer
  have other : ∀ (x : T) (y : Thr σ β), x ≠ t → x ≠ u → (s.set x y).thr t = s.thr t ∧ (s.set x y).thr u = s.thr u :=
    fun x y hx hu => ⟨St.set_ne s (Ne.symm hx) y, St.set_ne s (Ne.symm hu) y⟩
  rcases hs with hs | hs
  · cases hs with
    | mk x m hc hi =>
      have hx : x ≠ t := by rintro rfl; rw [et] at hi; cases hi
      have hu : x ≠ u := by rintro rfl; rw [eu] at hi; cases hi
      exact ⟨(other x _ hx hu).1, (other x _ hx hu).2, rfl, rfl⟩
  · cases hs with
    | ret x id b held w hc e =>
      have hx : x ≠ t := by rintro rfl; rw [et] at e; cases e
      have hu : x ≠ u := by rintro rfl; rw [eu] at e; cases e
      exact ⟨(other x _ hx hu).1, (other x _ hx hu).2, rfl, rfl⟩
    | act x id f k held w mem' hc e hf =>
      have hx : x ≠ t := by rintro rfl; rw [et] at e; cases e
      have hu : x ≠ u := by rintro rfl; rw [eu] at e; cases e
      exact ⟨(other x _ hx hu).1, (other x _ hx hu).2, rfl, rfl⟩
    | crash => exact ⟨rfl, rfl, rfl, rfl⟩
    | rlock x id p held hc e hp => rw [h.pending] at hp; cases hp
    | sleep x id p held hc e hp =>
      have hx : x ≠ t := by rintro rfl; rw [et] at e; cases e
      have hu : x ≠ u := by rintro rfl; rw [eu] at e; cases e
      exact ⟨(other x _ hx hu).1, (other x _ hx hu).2, rfl, rfl⟩
    | resume x id p held hc e =>
      have hx : x ≠ t := by rintro rfl; rw [et] at e; cases e
      have hu : x ≠ u := by rintro rfl; rw [eu] at e; cases e
      exact ⟨(other x _ hx hu).1, (other x _ hx hu).2, rfl, rfl⟩
    | runlock x id p held hc e =>
      have hx : x ≠ t := by rintro rfl; rw [et] at e; cases e
      have hu : x ≠ u := by rintro rfl; rw [eu] at e; cases e
      exact ⟨(other x _ hx hu).1, (other x _ hx hu).2, rfl, rfl⟩
    | badRunlock => exact ⟨rfl, rfl, rfl, rfl⟩
    | announce x id p held hc e hp => rw [h.pending] at hp; cases hp
    | acquire x id p held hc e hp hna hnr => exact absurd h.reading (hnr t)
    | unlock x id p held hc e ha => rw [h.active] at ha; cases ha
    | badUnlock => exact ⟨rfl, rfl, rfl, rfl⟩

theorem Stuck.steps {obj : M → Prog σ β} {t u : T} {s s' : St T M σ β} (h : Stuck t u s) (hs : Steps obj s s') :
    s'.thr t = s.thr t ∧ s'.thr u = s.thr u ∧ Stuck t u s' := by
  induction hs with
  | refl => exact ⟨rfl, rfl, h⟩
  | step _ hs ih =>
    obtain ⟨h1, h2, h3⟩ := ih
    obtain ⟨a, b, c, d⟩ := h3.step hs
    refine ⟨a.trans h1, b.trans h2, ?_⟩
    exact ⟨by rw [a]; exact h3.reader, by rw [b]; exact h3.writer, c.trans h3.pending, d.trans h3.active⟩

/-- If no other call is in progress this is a deadlock. -/
theorem Stuck.deadlock {t u : T} {s : St T M σ β} (h : Stuck t u s) (hc : s.crashed = false) (hi : ∀ x, x ≠ t → x ≠ u → s.thr x = .idle) :
    Deadlock s := by
  obtain ⟨idt, pt, ht, _, et⟩ := h.reader
  obtain ⟨idu, pu, eu⟩ := h.writer
  refine ⟨hc, ⟨t, by rw [et]; simp⟩, fun s' hs => ?_⟩
  have who : ∀ (x : T) (id : Nat) (p : Prog σ β) (held : Nat) (w : Wait), s.thr x = .run id p held w →
      (∃ p', p = .rlock p' ∧ w = .queued) ∨ (x = u ∧ ∃ p', p = .lock p') := by
    intro x id p held w e
    by_cases hx : x = t
    · subst hx; rw [et] at e; cases e; exact .inl ⟨_, rfl, rfl⟩
    · by_cases hu : x = u
      · subst hu; rw [eu] at e; cases e; exact .inr ⟨rfl, _, rfl⟩
      · rw [hi x hx hu] at e; cases e
  cases hs with
  | ret x id b held w hc e => rcases who _ _ _ _ _ e with ⟨_, h, _⟩ | ⟨_, _, h⟩ <;> cases h
  | act x id f k held w mem' hc e hf => rcases who _ _ _ _ _ e with ⟨_, h, _⟩ | ⟨_, _, h⟩ <;> cases h
  | crash x id f k held w hc e => rcases who _ _ _ _ _ e with ⟨_, h, _⟩ | ⟨_, _, h⟩ <;> cases h
  | rlock x id p held hc e hp => rw [h.pending] at hp; cases hp
  | sleep x id p held hc e hp =>
    rcases who _ _ _ _ _ e with ⟨_, _, h⟩ | ⟨_, _, h⟩ <;> cases h
  | resume x id p held hc e => rcases who _ _ _ _ _ e with ⟨_, _, h⟩ | ⟨_, _, h⟩ <;> cases h
  | runlock x id p held hc e => rcases who _ _ _ _ _ e with ⟨_, h, _⟩ | ⟨_, _, h⟩ <;> cases h
  | badRunlock x id p hc e => rcases who _ _ _ _ _ e with ⟨_, h, _⟩ | ⟨_, _, h⟩ <;> cases h
  | announce x id p held hc e hp => rw [h.pending] at hp; cases hp
  | acquire x id p held hc e hp hna hnr => exact absurd h.reading (hnr t)
  | unlock x id p held hc e ha => rw [h.active] at ha; cases ha
  | badUnlock x id p held hc e => rcases who _ _ _ _ _ e with ⟨_, h, _⟩ | ⟨_, _, h⟩ <;> cases h

end Verif.Locks
