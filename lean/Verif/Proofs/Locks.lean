import Verif.Spec.Linear

/-! # Critical sections make methods atomic -/

namespace Verif.Locks
open Verif Verif.Spec

set_option linter.unusedSectionVars false

variable {T M σ β γ : Type} [DecidableEq T]

/-! ## Shapes of programs -/

namespace Prog

/-- A reader with `d` read locks that ends with `lo`: it acts only with a lock and never writes. -/
inductive Reads (lo : Nat) : Nat → Prog σ β → Prop where
  | ret (b : β) : Reads lo lo (ret b)
  | act {d : Nat} {f : σ → Go σ} {k : σ → Prog σ β} : 0 < d → (∀ s s', f s = .val s' → s' = s) → (∀ s, Reads lo d (k s)) →
      Reads lo d (act f k)
  | rlock {d : Nat} {p : Prog σ β} : 0 < d → Reads lo (d + 1) p → Reads lo d (rlock p)
  | runlock {d : Nat} {p : Prog σ β} : Reads lo d p → Reads lo (d + 1) (runlock p)

/-- A writer with the lock. -/
inductive Writes : Prog σ β → Prop where
  | act {f : σ → Go σ} {k : σ → Prog σ β} : (∀ s, Writes (k s)) → Writes (act f k)
  | unlock (b : β) : Writes (unlock (ret b))

/-- A method that is one critical section, or has no action. -/
inductive Crit : Prog σ β → Prop where
  | ret (b : β) : Crit (ret b)
  | rlock {p : Prog σ β} : Reads 0 1 p → Crit (rlock p)
  | lock {p : Prog σ β} : Writes p → Crit (lock p)

theorem ReadOnly.reads_bind {p : Prog σ β} (h : ReadOnly p) {g : β → Prog σ γ} {lo d : Nat} (hd : 0 < d) (hg : ∀ b, Reads lo d (g b)) :
    Reads lo d (p.bind g) := by
  induction h with
  | ret b => exact hg b
  | act hf _ ih => exact .act hd hf ih

theorem Reads.bind {p : Prog σ β} {lo d : Nat} (h : Reads lo d p) {g : β → Prog σ γ} {lo' : Nat} (hg : ∀ b, Reads lo' lo (g b)) :
    Reads lo' d (p.bind g) := by
  induction h with
  | ret b => exact hg b
  | act hd hf _ ih => exact .act hd hf ih
  | rlock hd _ ih => exact .rlock hd ih
  | runlock _ ih => exact .runlock ih

theorem ReadOnly.reads {p : Prog σ β} (h : ReadOnly p) {d : Nat} (hd : 0 < d) : Reads d d p := by
  induction h with
  | ret b => exact .ret b
  | act hf _ ih => exact .act hd hf ih

theorem Reads.rlocked {p : Prog σ β} {d : Nat} (hd : 0 < d) (h : Reads (d + 1) (d + 1) p) : Reads d d (rlocked p) :=
  .rlock hd (h.bind fun b => .runlock (.ret b))

theorem Crit.rlocked {p : Prog σ β} (h : Reads 1 1 p) : Crit (rlocked p) := .rlock (h.bind fun b => .runlock (.ret b))

theorem Plain.writes_bind {p : Prog σ β} (h : Plain p) : Writes (p.bind fun b => Prog.unlock (Prog.ret b)) := by
  induction h with
  | ret b => exact .unlock b
  | act _ ih => exact .act ih

theorem Crit.locked {p : Prog σ β} (h : Plain p) : Crit (locked p) := .lock h.writes_bind

theorem run_bind (p : Prog σ β) (g : β → Prog σ γ) (s : σ) : (p.bind g).run s = (p.run s >>= fun x => (g x.2).run x.1) := by
  induction p generalizing s with
  | ret b => rfl
  | act f k ih =>
    simp only [bind, run]
    cases f s with
    | val s' => exact ih s s'
    | panic => rfl
    | hang => rfl
  | rlock p ih => exact ih s
  | runlock p ih => exact ih s
  | lock p ih => exact ih s
  | unlock p ih => exact ih s

theorem run_locked (p : Prog σ β) (s : σ) : (locked p).run s = p.run s := by
  show (p.bind _).run s = _
  rw [run_bind]; rcases p.run s with x | _ | _ <;> rfl

theorem run_rlocked (p : Prog σ β) (s : σ) : (rlocked p).run s = p.run s := by
  show (p.bind _).run s = _
  rw [run_bind]; rcases p.run s with x | _ | _ <;> rfl

theorem Reads.run_val {p : Prog σ β} {lo d : Nat} (h : Reads lo d p) {s s' : σ} {b : β} (hr : p.run s = .val (s', b)) : s' = s := by
  induction h generalizing s with
  | ret b => simp only [run, Go.val.injEq, Prod.mk.injEq] at hr; exact hr.1.symm
  | @act d f k hd hf _ ih =>
    simp only [run] at hr
    cases e : f s with
    | val s1 =>
      rw [e] at hr
      obtain rfl := hf _ _ e
      exact ih _ hr
    | panic => rw [e] at hr; cases hr
    | hang => rw [e] at hr; cases hr
  | rlock _ _ ih => exact ih hr
  | runlock _ ih => exact ih hr

end Prog

open Prog

/-! ## Methods with several sections

`Autocov.Value` asks for the count in one section and for the rest in another. This is as good as one section if what the first section
found out cannot change any more, and the following sections give the same answer then. -/

/-- A set of states that no method leaves. -/
def Stable (obj : M → Prog σ β) (Q : σ → Prop) : Prop := ∀ m s s' b, Q s → (obj m).run s = .val (s', b) → Q s'

mutual
/-- A program that, begun in a state in `Q`, does what method `m` does, in sections. -/
inductive Sect (obj : M → Prog σ β) (m : M) : (σ → Prop) → Prog σ β → Prop where
  | ret {Q : σ → Prop} (b : β) : (∀ s, Q s → (obj m).run s = .val (s, b)) → Sect obj m Q (ret b)
  | rlock {Q : σ → Prop} {p : Prog σ β} : (∀ s, Q s → Section obj m s 1 p) → (∀ s, Q s → p.run s = (obj m).run s) →
      Sect obj m Q (rlock p)
  | lock {Q : σ → Prop} {p : Prog σ β} : Writes p → (∀ s, Q s → p.run s = (obj m).run s) → Sect obj m Q (lock p)

/-- A reader with `d` read locks that finds state `s`: when it has left, either the call is over or another section (not a writing one)
begins. -/
inductive Section (obj : M → Prog σ β) (m : M) : σ → Nat → Prog σ β → Prop where
  | ret {s : σ} (b : β) : Section obj m s 0 (ret b)
  | again {s : σ} {Q : σ → Prop} {p : Prog σ β} : Stable obj Q → Q s → (∀ p', p ≠ lock p') → Sect obj m Q p → Section obj m s 0 p
  | act {s : σ} {d : Nat} {f : σ → Go σ} {k : σ → Prog σ β} : 0 < d → (∀ s s', f s = .val s' → s' = s) → (f s = .val s → Section obj m s d (k s)) →
      Section obj m s d (act f k)
  | rlock {s : σ} {d : Nat} {p : Prog σ β} : 0 < d → Section obj m s (d + 1) p → Section obj m s d (rlock p)
  | runlock {s : σ} {d : Nat} {p : Prog σ β} : Section obj m s d p → Section obj m s (d + 1) (runlock p)
end

/-- Every method of the object, begun in `Q`. -/
structure Sections (obj : M → Prog σ β) (Q : σ → Prop) : Prop where
  stable : Stable obj Q
  sect : ∀ m, Sect obj m Q (obj m)

theorem Prog.Reads.section {obj : M → Prog σ β} {m : M} {d : Nat} {p : Prog σ β} (h : Reads 0 d p) (s : σ) : Section obj m s d p := by
  induction h with
  | ret b => exact .ret b
  | act hd hf _ ih => exact .act hd hf fun _ => ih s
  | rlock hd _ ih => exact .rlock hd ih
  | runlock _ ih => exact .runlock ih

/-- One section is a case of several. -/
theorem sections {obj : M → Prog σ β} (h : ∀ m, Crit (obj m)) : Sections obj fun _ => True := by
  refine ⟨fun _ _ _ _ _ _ => trivial, fun m => ?_⟩
  have hm := h m
  generalize hp : obj m = p at hm
  cases hm with
  | ret b => exact .ret b fun s _ => by rw [hp]; rfl
  | rlock hr => exact .rlock (fun s _ => hr.section s) fun s _ => by rw [hp]; rfl
  | lock hw => exact .lock hw fun s _ => by rw [hp]; rfl

/-! ## Histories -/

theorem before_append_res {hist : List (Event T M β)} {i : Nat} {r : β} {a b : Nat} (h : Before (hist ++ [.res i r]) a b) :
    Before hist a b := by
  obtain ⟨h1, h2, t, m, r', e, hr⟩ := h
  rcases List.eq_nil_or_concat h2 with rfl | ⟨h2', x, rfl⟩
  · have := List.append_inj_right' e rfl
    simp at this
  · rw [List.concat_eq_append, ← List.cons_append, ← List.append_assoc] at e
    exact ⟨h1, h2', t, m, r', (List.append_inj_left' e rfl), hr⟩

theorem before_append_inv {hist : List (Event T M β)} {i : Nat} {t : T} {m : M} {a b : Nat} (h : Before (hist ++ [.inv i t m]) a b) :
    Before hist a b ∨ b = i := by
  obtain ⟨h1, h2, t', m', r', e, hr⟩ := h
  rcases List.eq_nil_or_concat h2 with rfl | ⟨h2', x, rfl⟩
  · have := List.append_inj_right' e rfl
    simp only [List.cons.injEq, Event.inv.injEq, and_true] at this
    exact .inr this.1.symm
  · rw [List.concat_eq_append, ← List.cons_append, ← List.append_assoc] at e
    exact .inl ⟨h1, h2', t', m', r', (List.append_inj_left' e rfl), hr⟩

theorem before_res {hist : List (Event T M β)} {a b : Nat} (h : Before hist a b) : ∃ r, Event.res a r ∈ hist := by
  obtain ⟨h1, h2, t, m, r, rfl, hr⟩ := h
  exact ⟨r, List.mem_append_left _ hr⟩

/-! ## The invariant -/

/-- Where a call is, in terms of the sequential execution: not begun, reading, writing, or done and part of it. -/
inductive Phase (obj : M → Prog σ β) (pend : Prop) (active : Bool) (mem q : σ) (lin : List (Nat × M × β)) (id : Nat) (m : M) :
    Prog σ β → Nat → Wait → Prop where
  | start {Q : σ → Prop} {p : Prog σ β} {w : Wait} : Stable obj Q → Q q → Sect obj m Q p → (∀ p', p = .lock p' → p = obj m) →
      id ∉ lin.map (·.1) → (pend → active = false ∧ ∃ p', p = .lock p') →
      (w ≠ .no → ∃ p', p = .rlock p') → Phase obj pend active mem q lin id m p 0 w
  | read {p : Prog σ β} {held : Nat} {w : Wait} : id ∉ lin.map (·.1) → ¬ pend → 0 < held → Section obj m q held p → p.run q = (obj m).run q →
      (w ≠ .no → ∃ p', p = .rlock p') → Phase obj pend active mem q lin id m p held w
  | write {p : Prog σ β} : id ∉ lin.map (·.1) → pend → active = true → Writes p → p.run mem = (obj m).run q →
      Phase obj pend active mem q lin id m p 0 .no
  | fin (b : β) : (id, m, b) ∈ lin → ¬ pend → Phase obj pend active mem q lin id m (.ret b) 0 .no

/-- What is known about one goroutine. -/
def ThrOK (obj : M → Prog σ β) (hist : List (Event T M β)) (pend : Prop) (active : Bool) (mem q : σ) (lin : List (Nat × M × β)) (t : T) :
    Thr σ β → Prop
  | .idle => ¬ pend ∧ ∀ a m, Event.inv a t m ∈ hist → ∃ r, Event.res a r ∈ hist
  | .run id p held w => (∀ b, Event.res id b ∉ hist) ∧ (∀ a m, Event.inv a t m ∈ hist → a = id ∨ ∃ r, Event.res a r ∈ hist) ∧
      ∃ m, Event.inv id t m ∈ hist ∧ Phase obj pend active mem q lin id m p held w

structure Inv (obj : M → Prog σ β) (s0 : σ) (s : St T M σ β) (lin : List (Nat × M × β)) (q : σ) : Prop where
  ex : Explains (fun m => (obj m).run) s0 s.hist lin q
  thr : ∀ t, ThrOK obj s.hist (s.pending = some t) s.active s.mem q lin t (s.thr t)
  mem : s.active = false → s.mem = q
  excl : s.active = true → ∀ t, ¬ (s.thr t).reading
  own : s.active = true → s.pending ≠ none
  lt : ∀ a t m, Event.inv a t m ∈ s.hist → a < s.next
  uniq : ∀ a t m t' m', Event.inv a t m ∈ s.hist → Event.inv a t' m' ∈ s.hist → t = t' ∧ m = m'
  hist : ∀ h1 h2 t a b m m', s.hist = h1 ++ .inv b t m :: h2 → Event.inv a t m' ∈ h1 → ∃ r, Event.res a r ∈ h1

theorem Inv.init (obj : M → Prog σ β) (s0 : σ) : Inv obj s0 (St.init s0 : St T M σ β) [] s0 where
  ex := ⟨.nil _, List.nodup_nil, fun _ _ _ h => by simp at h, fun _ _ h => by simp [St.init] at h, List.Pairwise.nil⟩
  thr t := ⟨by simp [St.init], fun a m h => by simp [St.init] at h⟩
  mem _ := rfl
  excl h := by simp [St.init] at h
  own h := by simp [St.init] at h
  lt a t m h := by simp [St.init] at h
  uniq a t m t' m' h := by simp [St.init] at h
  hist h1 h2 t a b m m' e := by simp [St.init] at e

/-- The sequential execution grows by a call that is in progress. -/
theorem explains_snoc {obj : M → Prog σ β} {s0 : σ} {hist : List (Event T M β)} {lin : List (Nat × M × β)} {q q' : σ} {id : Nat} {m : M}
    {b : β} {t : T} (h : Explains (fun m => (obj m).run) s0 hist lin q) (hid : id ∉ lin.map (·.1)) (hm : Event.inv id t m ∈ hist)
    (hr : ∀ b, Event.res id b ∉ hist) (hrun : (obj m).run q = .val (q', b)) :
    Explains (fun m => (obj m).run) s0 hist (lin ++ [(id, m, b)]) q' where
  runs := .snoc h.runs hrun
  once := by
    rw [List.map_append]
    refine List.nodup_append.2 ⟨h.once, by simp, ?_⟩
    rintro a ha b hb rfl
    simp only [List.map_cons, List.map_nil, List.mem_singleton] at hb
    exact hid (hb ▸ ha)
  made i m' b' hi := by
    rcases List.mem_append.1 hi with hi | hi
    · exact h.made i m' b' hi
    · simp only [List.mem_singleton, Prod.mk.injEq] at hi
      obtain ⟨rfl, rfl, rfl⟩ := hi
      exact ⟨t, hm⟩
  returned i b' hi := by
    obtain ⟨m', hm'⟩ := h.returned i b' hi
    exact ⟨m', List.mem_append_left _ hm'⟩
  order := by
    refine List.pairwise_append.2 ⟨h.order, List.pairwise_singleton _ _, ?_⟩
    intro x hx y hy hb
    simp only [List.mem_singleton] at hy
    subst hy
    obtain ⟨r, hr'⟩ := before_res hb
    exact hr r hr'

/-- Another goroutine is not affected by the growth, as long as the sequential state stays the same or it is not reading. -/
theorem Phase.frame {obj : M → Prog σ β} {pend pend' : Prop} {active active' : Bool} {mem mem' q q' : σ} {lin lin' : List (Nat × M × β)}
    {id : Nat} {m : M} {p : Prog σ β} {held : Nat} {w : Wait} (h : Phase obj pend active mem q lin id m p held w)
    (hlin : ∀ c ∈ lin, c ∈ lin') (hnew : id ∉ lin.map (·.1) → id ∉ lin'.map (·.1)) (hpend : pend' → pend)
    (hact : pend' → active' = active) (hst : ∀ Q, Stable obj Q → Q q → Q q') (hq : 0 < held → q' = q)
    (hw : pend → active = true → pend' ∧ active' = true ∧ mem' = mem ∧ q' = q) :
    Phase obj pend' active' mem' q' lin' id m p held w := by
  cases h with
  | start hQ hq' hp hl hid hpd hww =>
    exact .start hQ (hst _ hQ hq') hp hl (hnew hid) (fun h => ⟨(hact h).trans (hpd (hpend h)).1, (hpd (hpend h)).2⟩) hww
  | read hid hp hh hr hrun hww => exact .read (hnew hid) (fun h => hp (hpend h)) hh (by rw [hq hh]; exact hr) (by rw [hq hh]; exact hrun) hww
  | write hid hp ha hwr hrun =>
    obtain ⟨a, b, c, d⟩ := hw hp ha
    exact .write (hnew hid) a b hwr (by rw [c, d]; exact hrun)
  | fin b hb hp => exact .fin b (hlin _ hb) (fun h => hp (hpend h))

theorem ThrOK.frame {obj : M → Prog σ β} {hist : List (Event T M β)} {pend pend' : Prop} {active active' : Bool} {mem mem' q q' : σ}
    {lin lin' : List (Nat × M × β)} {t : T} {x : Thr σ β} (h : ThrOK obj hist pend active mem q lin t x)
    (hlin : ∀ c ∈ lin, c ∈ lin') (hnew : ∀ id p held w, x = .run id p held w → id ∉ lin.map (·.1) → id ∉ lin'.map (·.1))
    (hpend : pend' → pend) (hact : pend' → active' = active) (hst : ∀ Q, Stable obj Q → Q q → Q q') (hq : x.reading → q' = q)
    (hw : pend → active = true → pend' ∧ active' = true ∧ mem' = mem ∧ q' = q) : ThrOK obj hist pend' active' mem' q' lin' t x := by
  cases x with
  | idle => exact ⟨fun hp => h.1 (hpend hp), h.2⟩
  | run id p held w =>
    obtain ⟨h1, h2, m, hm, hph⟩ := h
    exact ⟨h1, h2, m, hm, hph.frame hlin (hnew id p held w rfl) hpend hact hst (fun hh => hq (.inl hh)) hw⟩

/-- The history grows by an event of another goroutine. -/
theorem ThrOK.hist {obj : M → Prog σ β} {hist : List (Event T M β)} {pend : Prop} {active : Bool} {mem q : σ}
    {lin : List (Nat × M × β)} {t : T} {x : Thr σ β} {e : Event T M β} (h : ThrOK obj hist pend active mem q lin t x)
    (hi : ∀ a m, e ≠ .inv a t m) (hr : ∀ id p held w b, x = .run id p held w → e ≠ .res id b) :
    ThrOK obj (hist ++ [e]) pend active mem q lin t x := by
  have mono : ∀ a : Nat, (∃ r, Event.res a r ∈ hist) → ∃ r, Event.res a r ∈ hist ++ [e] := by
    rintro a ⟨r, hr⟩; exact ⟨r, List.mem_append_left _ hr⟩
  have back : ∀ a m, Event.inv a t m ∈ hist ++ [e] → Event.inv a t m ∈ hist := by
    intro a m hm
    rcases List.mem_append.1 hm with hm | hm
    · exact hm
    · exact absurd (List.mem_singleton.1 hm).symm (hi a m)
  cases x with
  | idle => exact ⟨h.1, fun a m hm => mono a (h.2 a m (back a m hm))⟩
  | run id p held w =>
    obtain ⟨h1, h2, m, hm, hph⟩ := h
    refine ⟨fun b hb => ?_, fun a m hm => (h2 a m (back a m hm)).imp (fun h => h) (mono a), m, List.mem_append_left _ hm, hph⟩
    rcases List.mem_append.1 hb with hb | hb
    · exact h1 b hb
    · exact hr id p held w b rfl (List.mem_singleton.1 hb).symm

theorem St.set_same (s : St T M σ β) (t : T) (x : Thr σ β) : (s.set t x).thr t = x := Function.update_self ..

theorem St.set_ne (s : St T M σ β) {t u : T} (h : u ≠ t) (x : Thr σ β) : (s.set t x).thr u = s.thr u := Function.update_of_ne h ..

/-- Steps that change only one goroutine, and neither history nor memory nor lock. -/
theorem Inv.set {obj : M → Prog σ β} {s0 : σ} {s : St T M σ β} {lin : List (Nat × M × β)} {q : σ} (h : Inv obj s0 s lin q) {t : T}
    {x : Thr σ β} (ht : ThrOK obj s.hist (s.pending = some t) s.active s.mem q lin t x) (hr : s.active = true → ¬ x.reading) :
    Inv obj s0 (s.set t x) lin q where
  ex := h.ex
  thr u := by
    by_cases hu : u = t
    · subst hu; rw [St.set_same]; exact ht
    · rw [St.set_ne s hu]; exact h.thr u
  mem := h.mem
  excl ha u := by
    by_cases hu : u = t
    · subst hu; rw [St.set_same]; exact hr ha
    · rw [St.set_ne s hu]; exact h.excl ha u
  own := h.own
  lt := h.lt
  uniq := h.uniq
  hist := h.hist

/-- A call in progress: number, method, and what is known. -/
theorem Inv.at {obj : M → Prog σ β} {s0 : σ} {s : St T M σ β} {lin : List (Nat × M × β)} {q : σ} (h : Inv obj s0 s lin q) {t : T} {id : Nat}
    {p : Prog σ β} {held : Nat} {w : Wait} (e : s.thr t = .run id p held w) :
    (∀ b, Event.res id b ∉ s.hist) ∧ (∀ a m, Event.inv a t m ∈ s.hist → a = id ∨ ∃ r, Event.res a r ∈ s.hist) ∧
      ∃ m, Event.inv id t m ∈ s.hist ∧ Phase obj (s.pending = some t) s.active s.mem q lin id m p held w := by
  have := h.thr t
  rw [e] at this
  exact this

/-- Other goroutines have other call numbers. -/
theorem Inv.other {obj : M → Prog σ β} {s0 : σ} {s : St T M σ β} {lin : List (Nat × M × β)} {q : σ} (h : Inv obj s0 s lin q) {t u : T}
    {id id' : Nat} {p p' : Prog σ β} {held held' : Nat} {w w' : Wait} (e : s.thr t = .run id p held w) (hu : u ≠ t)
    (e' : s.thr u = .run id' p' held' w') : id' ≠ id := by
  rintro rfl
  obtain ⟨_, _, m, hm, _⟩ := h.at e
  obtain ⟨_, _, m', hm', _⟩ := h.at e'
  exact hu (h.uniq _ _ _ _ _ hm' hm).1

theorem not_mem_snoc {lin : List (Nat × M × β)} {id id' : Nat} {m : M} {b : β} (h : id' ∉ lin.map (·.1)) (hne : id' ≠ id) :
    id' ∉ (lin ++ [(id, m, b)]).map (·.1) := by
  rw [List.map_append, List.mem_append]
  rintro (h' | h')
  · exact h h'
  · simp only [List.map_cons, List.map_nil, List.mem_singleton] at h'
    exact hne h'

/-- A step that completes a call (other than by a writer): the call joins the sequential execution. -/
theorem Inv.finish {obj : M → Prog σ β} {s0 : σ} {s : St T M σ β} {lin : List (Nat × M × β)} {q : σ} (h : Inv obj s0 s lin q) {t : T}
    {id : Nat} {p : Prog σ β} {held : Nat} {w : Wait} {m : M} {b : β} (e : s.thr t = .run id p held w) (hid : id ∉ lin.map (·.1))
    (hm : Event.inv id t m ∈ s.hist) (hp : s.pending ≠ some t) (hrun : (obj m).run q = .val (q, b)) :
    Inv obj s0 (s.set t (.run id (.ret b) 0 .no)) (lin ++ [(id, m, b)]) q where
  ex := explains_snoc h.ex hid hm (h.at e).1 hrun
  thr u := by
    by_cases hu : u = t
    · subst hu; rw [St.set_same]
      exact ⟨(h.at e).1, (h.at e).2.1, m, hm, .fin b (List.mem_append_right _ (List.mem_singleton.2 rfl)) hp⟩
    · rw [St.set_ne s hu]
      exact (h.thr u).frame (fun c hc => List.mem_append_left _ hc) (fun id' p' held' w' e' hid' => not_mem_snoc hid' (h.other e hu e'))
        (fun h => h) (fun _ => rfl) (fun _ _ h => h) (fun _ => rfl) (fun hp ha => ⟨hp, ha, rfl, rfl⟩)
  mem := h.mem
  excl ha u := by
    by_cases hu : u = t
    · subst hu; rw [St.set_same]; rintro (h | h)
      · exact absurd h (by omega)
      · cases h
    · rw [St.set_ne s hu]; exact h.excl ha u
  own := h.own
  lt := h.lt
  uniq := h.uniq
  hist := h.hist

theorem Inv.crash {obj : M → Prog σ β} {s0 : σ} {s : St T M σ β} {lin : List (Nat × M × β)} {q : σ} (h : Inv obj s0 s lin q) :
    Inv obj s0 { s with crashed := true } lin q :=
  ⟨h.ex, h.thr, h.mem, h.excl, h.own, h.lt, h.uniq, h.hist⟩

theorem Stable.seqRun {obj : M → Prog σ β} {Q : σ → Prop} (hQ : Stable obj Q) {s0 s : σ} {lin : List (Nat × M × β)}
    (h : SeqRun (fun m => (obj m).run) s0 lin s) (h0 : Q s0) : Q s := by
  induction h with
  | nil => exact h0
  | snoc _ hr ih => exact hQ _ _ _ _ ih hr

theorem Inv.invoke {obj : M → Prog σ β} {Q : σ → Prop} (hobj : Sections obj Q) {s0 : σ} (h0 : Q s0) {s s' : St T M σ β}
    {lin : List (Nat × M × β)} {q : σ} (h : Inv obj s0 s lin q) (hs : Invoke obj s s') : Inv obj s0 s' lin q := by
  cases hs with | mk t m hc hi =>
  have hidle := h.thr t
  rw [hi] at hidle
  have hres : ∀ b, Event.res s.next b ∉ s.hist := by
    intro b hb
    obtain ⟨m', hm'⟩ := h.ex.returned _ _ hb
    obtain ⟨t', ht'⟩ := h.ex.made _ _ _ hm'
    exact absurd (h.lt _ _ _ ht') (by omega)
  have hlin : s.next ∉ lin.map (·.1) := by
    intro hb
    obtain ⟨⟨i, m', b⟩, hx, rfl⟩ := List.mem_map.1 hb
    obtain ⟨t', ht'⟩ := h.ex.made _ _ _ hx
    exact absurd (h.lt _ _ _ ht') (by simp)
  refine ⟨⟨h.ex.runs, h.ex.once, ?_, ?_, ?_⟩, ?_, h.mem, ?_, h.own, ?_, ?_, ?_⟩
  · intro i m' b hb
    obtain ⟨t', ht'⟩ := h.ex.made i m' b hb
    exact ⟨t', List.mem_append_left _ ht'⟩
  · intro i b hb
    rcases List.mem_append.1 hb with hb | hb
    · exact h.ex.returned i b hb
    · simp at hb
  · refine h.ex.order.imp_of_mem ?_
    intro x y hx hy hnb hb
    rcases before_append_inv hb with hb | hb
    · exact hnb hb
    · exact hlin (hb ▸ List.mem_map_of_mem hx)
  · intro u
    by_cases hu : u = t
    · subst hu
      show ThrOK _ _ _ _ _ _ _ _ ((s.set u _).thr u)
      rw [St.set_same]
      refine ⟨?_, ?_, m, List.mem_append_right _ (List.mem_singleton.2 rfl), ?_⟩
      · intro b hb
        rcases List.mem_append.1 hb with hb | hb
        · exact hres b hb
        · simp at hb
      · intro a m' ha
        rcases List.mem_append.1 ha with ha | ha
        · obtain ⟨r, hr⟩ := hidle.2 a m' ha
          exact .inr ⟨r, List.mem_append_left _ hr⟩
        · simp only [List.mem_singleton, Event.inv.injEq] at ha
          exact .inl ha.1
      · exact .start hobj.stable (hobj.stable.seqRun h.ex.runs h0) (hobj.sect m) (fun _ _ => rfl) hlin (fun hp => absurd hp hidle.1) (fun hw => absurd rfl hw)
    · show ThrOK _ _ _ _ _ _ _ _ ((s.set t _).thr u)
      rw [St.set_ne s hu]
      refine (h.thr u).hist ?_ ?_
      · intro a m' he
        simp only [Event.inv.injEq] at he
        exact hu he.2.1.symm
      · intro _ _ _ _ _ _ he; cases he
  · intro ha u
    by_cases hu : u = t
    · subst hu
      show ¬ ((s.set u _).thr u).reading
      rw [St.set_same]; rintro (h | h)
      · exact absurd h (by omega)
      · cases h
    · show ¬ ((s.set t _).thr u).reading
      rw [St.set_ne s hu]; exact h.excl ha u
  · intro a t' m' ha
    rcases List.mem_append.1 ha with ha | ha
    · exact Nat.lt_succ_of_lt (h.lt _ _ _ ha)
    · simp only [List.mem_singleton, Event.inv.injEq] at ha
      show a < s.next + 1
      omega
  · intro a t1 m1 t2 m2 h1 h2
    rcases List.mem_append.1 h1 with h1 | h1 <;> rcases List.mem_append.1 h2 with h2 | h2
    · exact h.uniq _ _ _ _ _ h1 h2
    · simp only [List.mem_singleton, Event.inv.injEq] at h2
      exact absurd (h.lt _ _ _ h1) (by omega)
    · simp only [List.mem_singleton, Event.inv.injEq] at h1
      exact absurd (h.lt _ _ _ h2) (by omega)
    · simp only [List.mem_singleton, Event.inv.injEq] at h1 h2
      obtain ⟨rfl, rfl, rfl⟩ := h1
      obtain ⟨_, rfl, rfl⟩ := h2
      exact ⟨rfl, rfl⟩
  · intro h1 h2 t' a b m1 m2 e ha
    rcases List.eq_nil_or_concat h2 with rfl | ⟨h2', x, rfl⟩
    · have e1 := List.append_inj_left' e rfl
      have e2 := List.append_inj_right' e rfl
      simp only [List.cons.injEq, Event.inv.injEq, and_true] at e2
      subst e1
      obtain ⟨_, rfl, _⟩ := e2
      exact hidle.2 a m2 ha
    · rw [List.concat_eq_append, ← List.cons_append, ← List.append_assoc] at e
      exact h.hist h1 h2' t' a b m1 m2 (List.append_inj_left' e rfl) ha

/-- A return of a call that is part of the sequential execution. -/
theorem Inv.ret {obj : M → Prog σ β} {s0 : σ} {s : St T M σ β} {lin : List (Nat × M × β)} {q : σ} (h : Inv obj s0 s lin q) {t : T} {id : Nat}
    {p : Prog σ β} {held : Nat} {w : Wait} {m : M} {b : β} (e : s.thr t = .run id p held w) (hb : (id, m, b) ∈ lin)
    (hp : s.pending ≠ some t) : Inv obj s0 { s.set t .idle with hist := s.hist ++ [.res id b] } lin q := by
  refine ⟨⟨h.ex.runs, h.ex.once, ?_, ?_, ?_⟩, ?_, h.mem, ?_, h.own, ?_, ?_, ?_⟩
  · intro i m' b' hb
    obtain ⟨t', ht'⟩ := h.ex.made i m' b' hb
    exact ⟨t', List.mem_append_left _ ht'⟩
  · intro i b' hi
    rcases List.mem_append.1 hi with hi | hi
    · exact h.ex.returned i b' hi
    · simp only [List.mem_singleton, Event.res.injEq] at hi
      obtain ⟨rfl, rfl⟩ := hi
      exact ⟨m, hb⟩
  · exact h.ex.order.imp (fun hnb hb => hnb (before_append_res hb))
  · intro u
    by_cases hu : u = t
    · subst hu
      show ThrOK _ _ _ _ _ _ _ _ ((s.set u _).thr u)
      rw [St.set_same]
      refine ⟨hp, fun a m' ha => ?_⟩
      rcases List.mem_append.1 ha with ha | ha
      · rcases (h.at e).2.1 a m' ha with rfl | ⟨r, hr⟩
        · exact ⟨b, List.mem_append_right _ (List.mem_singleton.2 rfl)⟩
        · exact ⟨r, List.mem_append_left _ hr⟩
      · simp at ha
    · show ThrOK _ _ _ _ _ _ _ _ ((s.set t _).thr u)
      rw [St.set_ne s hu]
      refine (h.thr u).hist ?_ ?_
      · intro a m' he; cases he
      · intro id' p' held' w' b' e' he
        simp only [Event.res.injEq] at he
        exact h.other e hu e' he.1.symm
  · intro ha u
    by_cases hu : u = t
    · subst hu
      show ¬ ((s.set u _).thr u).reading
      rw [St.set_same]; exact fun h => h
    · show ¬ ((s.set t _).thr u).reading
      rw [St.set_ne s hu]; exact h.excl ha u
  · intro a t' m' ha
    rcases List.mem_append.1 ha with ha | ha
    · exact h.lt _ _ _ ha
    · simp at ha
  · intro a t1 m1 t2 m2 h1 h2
    rcases List.mem_append.1 h1 with h1 | h1 <;> rcases List.mem_append.1 h2 with h2 | h2
    · exact h.uniq _ _ _ _ _ h1 h2
    · simp at h2
    · simp at h1
    · simp at h1
  · intro h1 h2 t' a b' m1 m2 e' ha
    rcases List.eq_nil_or_concat h2 with rfl | ⟨h2', x, rfl⟩
    · have := List.append_inj_right' e' rfl
      simp at this
    · rw [List.concat_eq_append, ← List.cons_append, ← List.append_assoc] at e'
      exact h.hist h1 h2' t' a b' m1 m2 (List.append_inj_left' e' rfl) ha

/-- A goroutine in its critical section as a writer acts. -/
theorem Inv.write {obj : M → Prog σ β} {s0 : σ} {s : St T M σ β} {lin : List (Nat × M × β)} {q : σ} (h : Inv obj s0 s lin q) {t : T} {id : Nat}
    {p p' : Prog σ β} {m : M} {mem' : σ} (e : s.thr t = .run id p 0 .no) (hid : id ∉ lin.map (·.1)) (hm : Event.inv id t m ∈ s.hist)
    (hp : s.pending = some t) (ha : s.active = true) (hw : Writes p') (hrun : p'.run mem' = (obj m).run q) :
    Inv obj s0 { s.set t (.run id p' 0 .no) with mem := mem' } lin q where
  ex := h.ex
  thr u := by
    by_cases hu : u = t
    · subst hu
      show ThrOK _ _ _ _ _ _ _ _ ((s.set u _).thr u)
      rw [St.set_same]
      exact ⟨(h.at e).1, (h.at e).2.1, m, hm, .write hid hp ha hw hrun⟩
    · show ThrOK _ _ _ _ _ _ _ _ ((s.set t _).thr u)
      rw [St.set_ne s hu]
      exact (h.thr u).frame (fun c hc => hc) (fun _ _ _ _ _ h => h) (fun h => h) (fun _ => rfl) (fun _ _ h => h) (fun _ => rfl)
        (fun hpu _ => absurd (Option.some.inj (hpu.symm.trans hp)) hu)
  mem hf := by rw [show s.active = false from hf] at ha; cases ha
  excl _ u := by
    by_cases hu : u = t
    · subst hu
      show ¬ ((s.set u _).thr u).reading
      rw [St.set_same]; rintro (h | h)
      · exact absurd h (by omega)
      · cases h
    · show ¬ ((s.set t _).thr u).reading
      rw [St.set_ne s hu]; exact h.excl ha u
  own := h.own
  lt := h.lt
  uniq := h.uniq
  hist := h.hist

theorem Thr.wake_run {x : Thr σ β} {id : Nat} {p : Prog σ β} {held : Nat} {w : Wait} (h : x.wake = .run id p held w) :
    ∃ w', x = .run id p held w' ∧ (w ≠ .no → w' ≠ .no) := by
  cases x with
  | idle => cases h
  | run id' p' held' w' =>
    cases w' <;> simp only [Thr.wake, Thr.run.injEq] at h <;> obtain ⟨rfl, rfl, rfl, rfl⟩ := h <;> exact ⟨_, rfl, by simp⟩

theorem ThrOK.wake {obj : M → Prog σ β} {hist : List (Event T M β)} {pend : Prop} {active : Bool} {mem q : σ}
    {lin : List (Nat × M × β)} {t : T} {x : Thr σ β} (h : ThrOK obj hist pend active mem q lin t x) :
    ThrOK obj hist pend active mem q lin t x.wake := by
  cases x with
  | idle => exact h
  | run id p held w =>
    cases w with
    | no => exact h
    | granted => exact h
    | queued =>
      obtain ⟨h1, h2, m, hm, hph⟩ := h
      refine ⟨h1, h2, m, hm, ?_⟩
      cases hph with
      | start hQ hq hp hl hid hpd hww => exact .start hQ hq hp hl hid hpd (fun _ => hww (by simp))
      | read hid hp hh hr hrun hww => exact .read hid hp hh hr hrun (fun _ => hww (by simp))

/-- The writer leaves. -/
theorem Inv.unlock {obj : M → Prog σ β} {s0 : σ} {s : St T M σ β} {lin : List (Nat × M × β)} {q : σ} (h : Inv obj s0 s lin q) {t : T} {id : Nat}
    {m : M} {b : β} (e : s.thr t = .run id (.unlock (.ret b)) 0 .no) (hid : id ∉ lin.map (·.1))
    (hm : Event.inv id t m ∈ s.hist) (hp : s.pending = some t) (ha : s.active = true) (hrun : (obj m).run q = .val (s.mem, b)) :
    Inv obj s0 { s with pending := none, active := false, thr := fun u => if u = t then .run id (.ret b) 0 .no else (s.thr u).wake }
      (lin ++ [(id, m, b)]) s.mem where
  ex := explains_snoc h.ex hid hm (h.at e).1 hrun
  thr u := by
    by_cases hu : u = t
    · subst hu
      show ThrOK _ _ _ _ _ _ _ _ (if u = u then _ else _)
      rw [if_pos rfl]
      exact ⟨(h.at e).1, (h.at e).2.1, m, hm, .fin b (List.mem_append_right _ (List.mem_singleton.2 rfl)) (by simp)⟩
    · show ThrOK _ _ _ _ _ _ _ _ (if u = t then _ else _)
      rw [if_neg hu]
      refine ThrOK.wake ((h.thr u).frame (fun c hc => List.mem_append_left _ hc)
        (fun id' p' held' w' e' hid' => not_mem_snoc hid' (h.other e hu e')) ?_ ?_ ?_ ?_ ?_)
      · intro hp; cases hp
      · intro hp; cases hp
      · intro Q hQ hq; exact hQ _ _ _ _ hq hrun
      · intro hr; exact absurd hr (h.excl ha u)
      · intro hpu _; exact absurd (Option.some.inj (hpu.symm.trans hp)) hu
  mem _ := rfl
  excl ha := by cases ha
  own ha := by cases ha
  lt := h.lt
  uniq := h.uniq
  hist := h.hist

theorem Inv.inner {obj : M → Prog σ β} {s0 : σ} {s s' : St T M σ β} {lin : List (Nat × M × β)} {q : σ}
    (h : Inv obj s0 s lin q) (hs : Inner s s') : ∃ lin' q', Inv obj s0 s' lin' q' := by
  cases hs with
  | ret t id b held w hc e =>
    obtain ⟨h1, h2, m, hm, hph⟩ := h.at e
    cases hph with
    | start hQ hq hp hl hid hpd hww =>
      have hnp : s.pending ≠ some t := fun hp' => by obtain ⟨_, p', hp''⟩ := hpd hp'; cases hp''
      have hrun : (obj m).run q = .val (q, b) := by
        cases hp with
        | ret _ h => exact h q hq
      have h' := h.finish e hid hm hnp hrun
      have := h'.ret (St.set_same s t _) (List.mem_append_right _ (List.mem_singleton.2 rfl)) hnp
      refine ⟨lin ++ [(id, m, b)], q, ?_⟩
      have e2 : (s.set t (.run id (.ret b) 0 .no)).set t .idle = s.set t .idle := by
        simp [St.set]
      rw [e2] at this
      exact this
    | read hid hp hh hr hrun hww =>
      cases hr <;> exact absurd hh (by omega)
    | write hid hp ha hwr hrun => cases hwr
    | fin b hb hp => exact ⟨lin, q, h.ret e hb hp⟩
  | act t id f k held w mem' hc e hf =>
    obtain ⟨h1, h2, m, hm, hph⟩ := h.at e
    cases hph with
    | start hQ hq hp hl hid hpd hww => cases hp
    | read hid hp hh hr hrun hww =>
      have hna : s.active = false := by
        by_contra hc
        exact h.excl (by simpa using hc) t (by rw [e]; exact .inl hh)
      cases hr with
      | again _ _ _ _ => exact absurd hh (by omega)
      | act hd hfr hk =>
        obtain rfl := hfr _ _ hf
        have hmq := h.mem hna
        have hrun' : (k s.mem).run q = (obj m).run q := by
          rw [← hrun]
          simp only [Prog.run]
          rw [← hmq, hf]
        refine ⟨lin, q, h.set (x := .run id (k s.mem) held w) ⟨h1, h2, m, hm, .read hid hp hh (by rw [hmq] at hf ⊢; exact hk hf) hrun' ?_⟩ (by rw [hna]; intro hc; cases hc)⟩
        intro hw
        obtain ⟨p', hp'⟩ := hww hw
        cases hp'
    | write hid hp ha hwr hrun =>
      cases hwr with
      | act hk =>
        have hrun' : (k s.mem).run mem' = (obj m).run q := by
          rw [← hrun]
          simp only [Prog.run]
          rw [hf]
        exact ⟨lin, q, h.write e hid hm hp ha (hk _) hrun'⟩
  | crash t id f k held w hc e hf => exact ⟨lin, q, h.crash⟩
  | rlock t id p held hc e hp =>
    have hna : s.active = false := by
      by_contra hc
      exact h.own (by simpa using hc) hp
    obtain ⟨h1, h2, m, hm, hph⟩ := h.at e
    have hnp : s.pending ≠ some t := by rw [hp]; simp
    refine ⟨lin, q, h.set (x := .run id p (held + 1) .no) ⟨h1, h2, m, hm, ?_⟩ (by rw [hna]; intro hc; cases hc)⟩
    cases hph with
    | start hQ hq hp' hl hid hpd hww =>
      cases hp' with
      | rlock hr hrun => exact .read hid hnp (by omega) (hr q hq) (hrun q hq) (fun hw => absurd rfl hw)
    | read hid hp' hh hr hrun hww =>
      cases hr with
      | again _ _ _ _ => exact absurd hh (by omega)
      | rlock hd hr => exact .read hid hnp (by omega) hr hrun (fun hw => absurd rfl hw)
    | write hid hp ha hwr hrun => cases hwr
  | sleep t id p held hc e hp =>
    obtain ⟨h1, h2, m, hm, hph⟩ := h.at e
    refine ⟨lin, q, h.set (x := .run id (.rlock p) held .queued) ⟨h1, h2, m, hm, ?_⟩ ?_⟩
    · cases hph with
      | start hQ hq hp' hl hid hpd hww => exact .start hQ hq hp' hl hid hpd (fun _ => ⟨p, rfl⟩)
      | read hid hp' hh hr hrun hww => exact .read hid hp' hh hr hrun (fun _ => ⟨p, rfl⟩)
      | write hid hp ha hwr hrun => cases hwr
    · intro ha hr
      refine h.excl ha t ?_
      rw [e]
      rcases hr with hr | hr
      · exact .inl hr
      · cases hr
  | resume t id p held hc e =>
    have hna : s.active = false := by
      by_contra hc
      exact h.excl (by simpa using hc) t (by rw [e]; exact .inr rfl)
    obtain ⟨h1, h2, m, hm, hph⟩ := h.at e
    refine ⟨lin, q, h.set (x := .run id p (held + 1) .no) ⟨h1, h2, m, hm, ?_⟩ (by rw [hna]; intro hc; cases hc)⟩
    cases hph with
    | start hQ hq hp' hl hid hpd hww =>
      have hnp : s.pending ≠ some t := by
        intro hp
        obtain ⟨_, p', hp''⟩ := hpd hp
        cases hp''
      cases hp' with
      | rlock hr hrun => exact .read hid hnp (by omega) (hr q hq) (hrun q hq) (fun hw => absurd rfl hw)
    | read hid hp' hh hr hrun hww =>
      cases hr with
      | again _ _ _ _ => exact absurd hh (by omega)
      | rlock hd hr => exact .read hid hp' (by omega) hr hrun (fun hw => absurd rfl hw)
  | runlock t id p held hc e =>
    have hna : s.active = false := by
      by_contra hc
      exact h.excl (by simpa using hc) t (by rw [e]; exact .inl (by omega))
    obtain ⟨h1, h2, m, hm, hph⟩ := h.at e
    cases hph with
    | read hid hp' hh hr hrun hww =>
      cases hr with
      | runlock hr =>
        cases held with
        | succ d =>
          exact ⟨lin, q, h.set (x := .run id p (d + 1) .no) ⟨h1, h2, m, hm, .read hid hp' (by omega) hr hrun (fun hw => absurd rfl hw)⟩
            (by rw [hna]; intro hc; cases hc)⟩
        | zero =>
          cases hr with
          | ret b => exact ⟨lin ++ [(id, m, b)], q, h.finish e hid hm hp' hrun.symm⟩
          | again hQ hq hl hs =>
            refine ⟨lin, q, h.set (x := .run id p 0 .no) ⟨h1, h2, m, hm, .start hQ hq hs (fun p' e => absurd e (hl p')) hid
              (fun hp => absurd hp hp') (fun hw => absurd rfl hw)⟩ ?_⟩
            rw [hna]; intro hc; cases hc
          | act hd => exact absurd hd (by omega)
          | rlock hd => exact absurd hd (by omega)
  | badRunlock t id p hc e => exact ⟨lin, q, h.crash⟩
  | announce t id p held hc e hp =>
    have hna : s.active = false := by
      by_contra hc
      exact h.own (by simpa using hc) hp
    refine ⟨lin, q, ⟨h.ex, ?_, h.mem, h.excl, ?_, h.lt, h.uniq, h.hist⟩⟩
    · intro u
      by_cases hu : u = t
      · subst hu
        show ThrOK _ _ _ _ _ _ _ _ (s.thr u)
        rw [e]
        obtain ⟨h1, h2, m, hm, hph⟩ := h.at e
        refine ⟨h1, h2, m, hm, ?_⟩
        cases hph with
        | start hQ hq hp' hl hid hpd hww => exact .start hQ hq hp' hl hid (fun _ => ⟨hna, p, rfl⟩) hww
        | read hid hp' hh hr hrun hww => cases hr; exact absurd hh (by omega)
        | write hid hp ha hwr hrun => cases hwr
      · refine (h.thr u).frame (fun c hc => hc) (fun _ _ _ _ _ h => h) ?_ ?_ (fun _ _ h => h) (fun _ => rfl) ?_
        · intro hp'; exact absurd (Option.some.inj hp').symm hu
        · intro hp'; exact absurd (Option.some.inj hp').symm hu
        · intro hp' _; rw [hp] at hp'; cases hp'
    · intro _ hp'; cases hp'
  | acquire t id p held hc e hp hna hnr =>
    obtain ⟨h1, h2, m, hm, hph⟩ := h.at e
    cases hph with
    | start hQ hq hp' hl hid hpd hww =>
      cases hp' with
      | lock hwr hrun =>
        refine ⟨lin, q, ⟨h.ex, ?_, ?_, ?_, ?_, h.lt, h.uniq, h.hist⟩⟩
        · intro u
          by_cases hu : u = t
          · subst hu
            show ThrOK _ _ _ _ _ _ _ _ ((s.set u _).thr u)
            rw [St.set_same]
            exact ⟨h1, h2, m, hm, .write hid hp rfl hwr (by rw [show (s.set u _).mem = q from h.mem hna]; exact hrun q hq)⟩
          · show ThrOK _ _ _ _ _ _ _ _ ((s.set t _).thr u)
            rw [St.set_ne s hu]
            refine (h.thr u).frame (fun c hc => hc) (fun _ _ _ _ _ h => h) (fun h => h) ?_ (fun _ _ h => h) (fun _ => rfl) ?_
            · intro hpu; exact absurd (Option.some.inj (hpu.symm.trans hp)) hu
            · intro hpu; exact absurd (Option.some.inj (hpu.symm.trans hp)) hu
        · intro hf; cases hf
        · intro _ u
          by_cases hu : u = t
          · subst hu
            show ¬ ((s.set u _).thr u).reading
            rw [St.set_same]; rintro (h | h)
            · exact absurd h (by omega)
            · cases h
          · show ¬ ((s.set t _).thr u).reading
            rw [St.set_ne s hu]; exact hnr u
        · intro _ hpn; rw [show s.pending = none from hpn] at hp; cases hp
    | read hid hp' hh hr hrun hww => exact absurd hp hp'
    | write hid hp ha hwr hrun => cases hwr
  | unlock t id p held hc e ha =>
    obtain ⟨h1, h2, m, hm, hph⟩ := h.at e
    cases hph with
    | start hQ hq hp' hl hid hpd hww => cases hp'
    | read hid hp' hh hr hrun hww => cases hr; exact absurd hh (by omega)
    | write hid hp ha' hwr hrun =>
      cases hwr with
      | unlock b => exact ⟨_, _, h.unlock e hid hm hp ha hrun.symm⟩
  | badUnlock t id p held hc e ha => exact ⟨lin, q, h.crash⟩

/-- Every reachable state is explained by a sequential execution. -/
theorem reachable_inv {obj : M → Prog σ β} {Q : σ → Prop} (hobj : Sections obj Q) {s0 : σ} (h0 : Q s0) {s : St T M σ β}
    (h : Steps obj (St.init s0) s) :
    ∃ lin q, Inv obj s0 s lin q := by
  generalize hi : St.init s0 = s1 at h
  induction h with
  | refl => subst hi; exact ⟨[], s0, Inv.init obj s0⟩
  | step _ hs ih =>
    obtain ⟨lin, q, hI⟩ := ih
    rcases hs with hs | hs
    · exact ⟨lin, q, hI.invoke hobj h0 hs⟩
    · exact hI.inner hs

end Verif.Locks
