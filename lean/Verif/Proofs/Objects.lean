import Verif.Proofs.Deadlock

/-! # What holds for every object whose methods are critical sections -/

namespace Verif.Locks
open Verif Verif.Spec Prog

set_option linter.unusedSectionVars false

variable {T M σ β γ : Type} [DecidableEq T] {obj : M → Prog σ β} {sem : M → σ → Go (σ × β)} {s0 : σ} {s : St T M σ β}

theorem Inv.explains {lin : List (Nat × M × β)} {q : σ} (h : Inv obj s0 s lin q) (hrun : ∀ m s, (obj m).run s = sem m s) :
    Explains sem s0 s.hist lin q := by
  have e : (fun m => (obj m).run) = sem := funext fun m => funext fun s => hrun m s
  rw [← e]
  exact h.ex

theorem serializable {Q : σ → Prop} (hobj : Sections obj Q) (h0 : Q s0) (hrun : ∀ m s, (obj m).run s = sem m s) (h : Steps obj (St.init s0) s) :
    Serializable sem s0 s.hist := by
  obtain ⟨lin, q, hI⟩ := reachable_inv hobj h0 h
  refine ⟨lin, q, hI.explains hrun, hI.ex.order.imp ?_⟩
  intro x y hxy hp
  obtain ⟨h1, h2, t, m, m', e, hm⟩ := hp
  obtain ⟨r, hr⟩ := hI.hist h1 h2 t y.1 x.1 m m' e hm
  exact hxy ⟨h1, h2, t, m, r, e, hr⟩

/-- Nothing happens after a panic. -/
theorem Step.alive {s s' : St T M σ β} (h : Step obj s s') : s.crashed = false := by
  rcases h with h | h
  · cases h with | mk t m hc hi => exact hc
  · cases h <;> assumption

theorem Inv.start_ne {lin : List (Nat × M × β)} {q : σ} (h : Inv obj s0 s lin q) {t : T} {id : Nat}
    {f : σ → Go σ} {k : σ → Prog σ β} {held : Nat} {w : Wait} (e : s.thr t = .run id (.act f k) held w) :
    ∃ m, Event.inv id t m ∈ s.hist ∧ (∀ b, Event.res id b ∉ s.hist) ∧
      ((0 < held ∧ s.mem = q ∧ (∀ s s', f s = .val s' → s' = s) ∧ (Prog.act f k).run q = (obj m).run q) ∨
        (s.pending = some t ∧ s.active = true ∧ (Prog.act f k).run s.mem = (obj m).run q)) := by
  obtain ⟨h1, h2, m, hm, hph⟩ := h.at e
  refine ⟨m, hm, h1, ?_⟩
  cases hph with
  | start hQ hq hp => cases hp
  | read hid hp hh hrd hrun hww =>
    have hna : s.active = false := by
      by_contra ha
      refine h.excl (by simpa using ha) t ?_
      rw [e]; exact .inl hh
    cases hrd with
    | again => exact absurd hh (by omega)
    | act hd hf hk => exact .inl ⟨hh, h.mem hna, hf, hrun⟩
  | write hid hp ha hwr hrun => exact .inr ⟨hp, ha, hrun⟩

theorem run_panic {f : σ → Go σ} {k : σ → Prog σ β} {s : σ} (h : f s = .panic) : (Prog.act f k).run s = .panic := by
  simp only [Prog.run, h]

theorem panicExplained {Q : σ → Prop} (hobj : Sections obj Q) (h0 : Q s0) (hrun : ∀ m s, (obj m).run s = sem m s) (h : Steps obj (St.init s0) s)
    (hc : s.crashed = true) : PanicExplained sem s0 s.hist := by
  cases h with
  | refl => cases hc
  | step h hs =>
    obtain ⟨lin, q, hI⟩ := reachable_inv hobj h0 h
    have hal := hs.alive
    rename_i s1
    have no : ∀ {p : Prop}, s1.crashed = true → p := fun h => absurd h (by rw [hal]; simp)
    rcases hs with hs | hs
    · cases hs with
      | mk t m _ _ => exact no hc
    · cases hs with
      | crash t id f k held w _ e hf =>
        obtain ⟨m, hm, hr, h⟩ := hI.start_ne e
        refine ⟨lin, q, hI.explains hrun, id, t, m, ⟨hm, hr⟩, ?_⟩
        rw [← hrun]
        rcases h with ⟨_, hq, _, h⟩ | ⟨_, _, h⟩
        · rw [← h, ← hq]; exact run_panic hf
        · rw [← h]; exact run_panic hf
      | badRunlock t id p _ e =>
        exfalso
        obtain ⟨_, _, m, hm, hph⟩ := hI.at e
        cases hph with
        | start hQ hq hp => cases hp
        | read hid hp hh => exact absurd hh (by omega)
        | write hid hp ha hwr => cases hwr
      | badUnlock t id p held _ e ha =>
        exfalso
        obtain ⟨_, _, m, hm, hph⟩ := hI.at e
        cases hph with
        | start hQ hq hp => cases hp
        | read hid hp hh hrd => cases hrd; exact absurd hh (by omega)
        | write hid hp ha' => rw [ha] at ha'; cases ha'
      | ret => exact no hc
      | act => exact no hc
      | rlock => exact no hc
      | sleep => exact no hc
      | resume => exact no hc
      | runlock => exact no hc
      | announce => exact no hc
      | acquire => exact no hc
      | unlock => exact no hc

theorem raceFree {Q : σ → Prop} (hobj : Sections obj Q) (h0 : Q s0) (h : Steps obj (St.init s0) s) : ¬ Race s := by
  obtain ⟨lin, q, hI⟩ := reachable_inv hobj h0 h
  rintro ⟨t, u, id, id', f, f', k, k', held, held', w, w', htu, e, e', x, x', hx, hne⟩
  obtain ⟨m, hm, _, hw⟩ := hI.start_ne e
  obtain ⟨m', hm', _, hw'⟩ := hI.start_ne e'
  rcases hw with ⟨_, _, hf, _⟩ | ⟨hp, ha, _⟩
  · exact hne (hf _ _ hx)
  · rcases hw' with ⟨hh, _⟩ | ⟨hp', _⟩
    · exact hI.excl ha u (by rw [e']; exact .inl hh)
    · rw [hp] at hp'; cases hp'; exact htu rfl

theorem atomic_sections {Q : σ → Prop} (hobj : Sections obj Q) (h0 : Q s0) (hrun : ∀ m s, (obj m).run s = sem m s) : Atomic T obj sem s0 :=
  fun _ h => ⟨serializable hobj h0 hrun h, panicExplained hobj h0 hrun h, raceFree hobj h0 h⟩

theorem atomic (hobj : ∀ m, Crit (obj m)) (hrun : ∀ m s, (obj m).run s = sem m s) : Atomic T obj sem s0 :=
  atomic_sections (sections hobj) trivial hrun

/-! ## Deadlock needs a nested read lock and a writer -/

/-- Sleepers wait for an announced writer. -/
def QueuedInv (s : St T M σ β) : Prop := ∀ t id p held, s.thr t = .run id p held .queued → s.pending ≠ none

theorem QueuedInv.set {s : St T M σ β} (h : QueuedInv s) {t : T} {x : Thr σ β}
    (hq : ∀ id p held, x = .run id p held .queued → s.pending ≠ none) : QueuedInv (s.set t x) := by
  intro u id p held e
  by_cases hu : u = t
  · subst hu; rw [St.set_same] at e; exact hq _ _ _ e
  · rw [St.set_ne s hu] at e; exact h _ _ _ _ e

theorem QueuedInv.congr {s s' : St T M σ β} (h : QueuedInv s) (ht : s'.thr = s.thr) (hp : s.pending ≠ none → s'.pending ≠ none) :
    QueuedInv s' := by
  intro u id p held e
  rw [ht] at e
  exact hp (h _ _ _ _ e)

theorem QueuedInv.go {s : St T M σ β} (h : QueuedInv s) {t : T} {id held : Nat} {p : Prog σ β} : QueuedInv (s.set t (.run id p held .no)) :=
  h.set fun _ _ _ e => by cases e

theorem QueuedInv.step {s s' : St T M σ β} (h : QueuedInv s) (hs : Step obj s s') : QueuedInv s' := by
  rcases hs with hs | hs
  · cases hs with
    | mk t m hc hi => exact (h.go (t := t) (id := s.next) (held := 0) (p := obj m)).congr rfl (fun h => h)
  · cases hs with
    | ret t id b held w hc e => exact (h.set (t := t) (x := .idle) fun _ _ _ e => by cases e).congr rfl (fun h => h)
    | act t id f k held w mem' hc e hf =>
      refine (h.set (t := t) (x := .run id (k s.mem) held w) ?_).congr rfl (fun h => h)
      intro _ _ _ e'; cases e'; exact h _ _ _ _ e
    | crash t id f k held w hc e hf => exact h.congr rfl (fun h => h)
    | rlock t id p held hc e hp => exact h.go
    | sleep t id p held hc e hp => exact h.set fun _ _ _ _ => hp
    | resume t id p held hc e => exact h.go
    | runlock t id p held hc e => exact h.go
    | badRunlock t id p hc e => exact h.congr rfl (fun h => h)
    | announce t id p held hc e hp => exact h.congr rfl (fun _ => by simp)
    | acquire t id p held hc e hp hna hnr => exact (h.go (t := t) (id := id) (held := held) (p := p)).congr rfl (fun h => h)
    | unlock t id p held hc e ha =>
      intro u id' p' held' e'
      by_cases hu : u = t
      · subst hu
        simp only [if_true] at e'
        cases e'
      · simp only [if_neg hu] at e'
        exfalso
        cases hx : s.thr u with
        | idle => rw [hx] at e'; cases e'
        | run i q h w => rw [hx] at e'; cases w <;> cases e'
    | badUnlock t id p held hc e ha => exact h.congr rfl (fun h => h)

theorem reachable_queued (h : Steps obj (St.init s0) s) : QueuedInv s := by
  generalize hi : St.init s0 = s1 at h
  induction h with
  | refl =>
    subst hi
    intro _ _ _ _ e; cases e
  | step _ hs ih => exact ih.step hs

/-- The announced writer. -/
theorem Inv.writer {lin : List (Nat × M × β)} {q : σ} (h : Inv obj s0 s lin q) (ha : s.active = false) {u : T} (hu : s.pending = some u) :
    ∃ id p m, s.thr u = .run id (.lock p) 0 .no ∧ obj m = .lock p ∧ InProgress s.hist id u m := by
  cases e : s.thr u with
  | idle =>
    have := h.thr u
    rw [e] at this
    exact absurd hu this.1
  | run id p held w =>
    obtain ⟨h1, h2, m, hm, hph⟩ := h.at e
    cases hph with
    | start hS hq hp hl hid hpd hww =>
      obtain ⟨_, p', rfl⟩ := hpd hu
      have hw : w = .no := by
        by_contra hw
        obtain ⟨p'', hp''⟩ := hww hw
        cases hp''
      subst hw
      exact ⟨id, p', m, rfl, (hl p' rfl).symm, hm, h1⟩
    | read hid hp => exact absurd hu hp
    | fin b hb hp => exact absurd hu hp
    | write hid hp ha' => rw [ha] at ha'; cases ha'

/-- Some call can go on, or a reader with a lock waits for a writer. -/
theorem progress_or {lin : List (Nat × M × β)} {q : σ} (h : Inv obj s0 s lin q) (hQ : QueuedInv s)
    (hh : ∀ m, (obj m).run q ≠ .hang) (hc : s.crashed = false) {t : T} (ht : s.thr t ≠ .idle) :
    (∃ s', Inner s s') ∨ ∃ t u, Stuck t u s := by
  cases ha : s.active with
  | true =>
    obtain ⟨u, hu⟩ := Option.ne_none_iff_exists'.1 (h.own ha)
    cases e : s.thr u with
    | idle =>
      have := h.thr u
      rw [e] at this
      exact absurd hu this.1
    | run id p held w =>
      obtain ⟨h1, h2, m, hm, hph⟩ := h.at e
      cases hph with
      | start hS hq hp hl hid hpd hww => exact absurd (hpd hu).1 (by rw [ha]; simp)
      | read hid hp => exact absurd hu hp
      | fin b hb hp => exact absurd hu hp
      | write hid hp ha' hwr hrun =>
        cases hwr with
        | unlock b => exact .inl ⟨_, .unlock s u id _ _ hc e ha⟩
        | act hk => exact .inl (act_enabled hc e (run_hang (by rw [hrun]; exact hh m)))
  | false =>
    have hmq := h.mem ha
    by_cases hr : ∃ u, (s.thr u).reading
    · obtain ⟨u, hu⟩ := hr
      cases e : s.thr u with
      | idle => rw [e] at hu; exact hu.elim
      | run id p held w =>
        rw [e] at hu
        obtain ⟨h1, h2, m, hm, hph⟩ := h.at e
        cases hph with
        | start hS hq hp hl hid hpd hww =>
          rcases hu with hu | rfl
          · exact absurd hu (by omega)
          · obtain ⟨p', rfl⟩ := hww (by simp)
            exact .inl ⟨_, .resume s u id p' _ hc e⟩
        | write => rcases hu with hu | hu
                   · exact absurd hu (by omega)
                   · cases hu
        | fin => rcases hu with hu | hu
                 · exact absurd hu (by omega)
                 · cases hu
        | read hid hp hh' hrd hrun hww =>
          cases hrd with
          | ret b => exact absurd hh' (by omega)
          | again => exact absurd hh' (by omega)
          | act hd hf hk => exact .inl (act_enabled hc e (run_hang (by rw [hmq, hrun]; exact hh m)))
          | runlock hrd =>
            have hw : w = .no := by
              by_contra hw
              obtain ⟨p', hp'⟩ := hww hw
              cases hp'
            subst hw
            exact .inl ⟨_, .runlock s u id _ _ hc e⟩
          | rlock hd hrd =>
            cases w with
            | no =>
              by_cases hp : s.pending = none
              · exact .inl ⟨_, .rlock s u id _ _ hc e hp⟩
              · exact .inl ⟨_, .sleep s u id _ _ hc e hp⟩
            | granted => exact .inl ⟨_, .resume s u id _ _ hc e⟩
            | queued =>
              obtain ⟨v, hv⟩ := Option.ne_none_iff_exists'.1 (hQ _ _ _ _ e)
              obtain ⟨id', p', m', e', _, _⟩ := h.writer ha hv
              exact .inr ⟨u, v, ⟨id, _, held, hh', e⟩, ⟨id', p', e'⟩, hv, ha⟩
    · have hnr : ∀ u, ¬ (s.thr u).reading := fun u hu => hr ⟨u, hu⟩
      have hwriter : s.pending ≠ none → ∃ s', Inner s s' := by
        intro hp
        obtain ⟨u, hu⟩ := Option.ne_none_iff_exists'.1 hp
        obtain ⟨id', p', m', e', _, _⟩ := h.writer ha hu
        exact ⟨_, .acquire s u id' p' _ hc e' hu ha hnr⟩
      cases e : s.thr t with
      | idle => exact absurd e ht
      | run id p held w =>
        obtain ⟨h1, h2, m, hm, hph⟩ := h.at e
        cases hph with
        | read hid hp hh' => exact absurd (show (s.thr t).reading by rw [e]; exact .inl hh') (hnr t)
        | write hid hp ha' => rw [ha] at ha'; cases ha'
        | fin b hb hp => exact .inl ⟨_, .ret s t id b _ _ hc e⟩
        | start hS hq hp hl hid hpd hww =>
          cases hp with
          | ret b => exact .inl ⟨_, .ret s t id b _ _ hc e⟩
          | rlock hrd =>
            cases w with
            | no =>
              by_cases hp : s.pending = none
              · exact .inl ⟨_, .rlock s t id _ _ hc e hp⟩
              · exact .inl ⟨_, .sleep s t id _ _ hc e hp⟩
            | queued => exact .inl (hwriter (hQ _ _ _ _ e))
            | granted => exact .inl ⟨_, .resume s t id _ _ hc e⟩
          | lock hwr =>
            have hw : w = .no := by
              by_contra hw
              obtain ⟨p'', hp''⟩ := hww hw
              cases hp''
            subst hw
            by_cases hp : s.pending = none
            · exact .inl ⟨_, .announce s t id _ _ hc e hp⟩
            · exact .inl (hwriter hp)

/-- A deadlock is always of this form; in particular, a writing call is in progress. -/
theorem deadlock_stuck {Q : σ → Prop} (hobj : Sections obj Q) (h0 : Q s0) (hh : ∀ lin q, SeqRun (fun m => (obj m).run) s0 lin q → ∀ m, (obj m).run q ≠ .hang)
    (h : Steps obj (St.init s0) s) (hd : Deadlock s) : ∃ t u, Stuck t u s ∧ ∃ id m, (∃ p, obj m = .lock p) ∧ InProgress s.hist id u m := by
  obtain ⟨lin, q, hI⟩ := reachable_inv hobj h0 h
  obtain ⟨hc, ⟨t, ht⟩, hn⟩ := hd
  rcases progress_or hI (reachable_queued h) (hh lin q hI.ex.runs) hc ht with ⟨s', hs⟩ | ⟨t, u, hS⟩
  · exact absurd hs (hn s')
  · obtain ⟨id, p, m, _, hm, hi⟩ := hI.writer hS.active hS.pending
    exact ⟨t, u, hS, id, m, ⟨p, hm⟩, hi⟩

/-- With single read locks there is none. -/
theorem callsEnd [Finite T] (hc : ∀ m, Crit (obj m)) (hflat : ∀ m, (obj m).Flat)
    (hh : ∀ lin q, SeqRun (fun m => (obj m).run) s0 lin q → ∀ m, (obj m).run q ≠ .hang) : CallsEnd T obj s0 := by
  intro s h
  obtain ⟨lin, q, hI⟩ := reachable_inv (sections hc) trivial h
  refine ⟨?_, ?_⟩
  · rintro ⟨hc, ⟨t, ht⟩, hn⟩
    obtain ⟨s', hs⟩ := progress hI (reachable_flat hflat h) (hh lin q hI.ex.runs) hc ht
    exact hn s' hs
  · rintro ⟨f, hf, hs⟩
    clear hf
    have key : ∀ s, ∀ n, f n ≠ s := by
      intro s
      refine inner_wf.induction (C := fun s => ∀ n, f n ≠ s) s (fun s ih n e => ?_)
      exact ih (f (n + 1)) (e ▸ hs n) (n + 1) rfl
    exact key _ 0 rfl

/-- Every goroutine in the knot is stuck for good. -/
theorem Stuck.forever {t u : T} (h : Stuck t u s) : StuckForever obj t s ∧ StuckForever obj u s := by
  refine ⟨⟨?_, fun s' hs => (h.steps hs).1⟩, ⟨?_, fun s' hs => (h.steps hs).2.1⟩⟩
  · obtain ⟨id, p, held, _, e⟩ := h.reader
    rw [e]; simp
  · obtain ⟨id, p, e⟩ := h.writer
    rw [e]; simp

end Verif.Locks
