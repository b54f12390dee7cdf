import Verif.Model.Aggregate
import Mathlib.Algebra.BigOperators.Group.Finset.Basic
import Mathlib.Data.List.Perm.Basic
import Mathlib.Data.List.Nodup

/-! # Executions of an aggregate call -/

set_option linter.unusedSectionVars false

namespace Verif.Aggregate
open Verif Finset

variable {σ ω S : Type}

theorem sum_update {β : Type} (s : Finset Nat) (f : β → Nat) (g : Nat → β) (i : Nat) (v : β) (hi : i ∈ s) :
    (∑ j ∈ s, f (Function.update g i v j)) + f (g i) = (∑ j ∈ s, f (g j)) + f v := by
  rw [← Finset.add_sum_erase s _ hi, ← Finset.add_sum_erase s (fun j => f (g j)) hi]
  have : ∑ j ∈ s.erase i, f (Function.update g i v j) = ∑ j ∈ s.erase i, f (g j) := by
    apply Finset.sum_congr rfl
    intro j hj
    rw [Function.update_of_ne (Finset.mem_erase.1 hj).1]
  rw [this, Function.update_self]
  omega

/-- 0 for a finished goroutine, else 1. -/
def live : PC ω S → Nat
  | .done => 0
  | _ => 1

/-- Transitions a goroutine has left. -/
def left : PC ω S → Nat
  | .ready => 6
  | .waiting _ => 5
  | .holding _ => 4
  | .loaded _ _ => 3
  | .stored => 2
  | .fin => 1
  | .done => 0

section
variable (n : Nat) (job : Nat → σ → Go (σ × Option ω)) (add : S → ω → S) (c0 : Nat → σ) (s0 : S)

/-- What holds of goroutine `i`. -/
def Th (t : St σ ω S) (log : List (Nat × ω)) (i : Nat) : PC ω S → Prop
  | .ready => t.cells i = c0 i ∧ i ∉ log.map Prod.fst
  | .waiting w => i < t.spawned ∧ job i (c0 i) = .val (t.cells i, some w) ∧ i ∉ log.map Prod.fst
  | .holding w => i < t.spawned ∧ job i (c0 i) = .val (t.cells i, some w) ∧ i ∉ log.map Prod.fst ∧ t.owner = some i
  | .loaded w r => i < t.spawned ∧ job i (c0 i) = .val (t.cells i, some w) ∧ i ∉ log.map Prod.fst ∧ t.owner = some i ∧ r = t.shared
  | .stored => i < t.spawned ∧ (∃ w, job i (c0 i) = .val (t.cells i, some w) ∧ (i, w) ∈ log) ∧ t.owner = some i
  | .fin => i < t.spawned ∧ ((job i (c0 i) = .val (t.cells i, none) ∧ i ∉ log.map Prod.fst) ∨
      ∃ w, job i (c0 i) = .val (t.cells i, some w) ∧ (i, w) ∈ log)
  | .done => i < t.spawned ∧ ((job i (c0 i) = .val (t.cells i, none) ∧ i ∉ log.map Prod.fst) ∨
      ∃ w, job i (c0 i) = .val (t.cells i, some w) ∧ (i, w) ∈ log)

/-- Goroutine inside the critical section. -/
def inside : PC ω S → Prop
  | .holding _ => True
  | .loaded _ _ => True
  | .stored => True
  | _ => False

/-- The invariant of an execution; `log` is the order in which reports were stored. -/
structure Inv (t : St σ ω S) (log : List (Nat × ω)) : Prop where
  le : t.spawned ≤ n
  wg : t.wg = ∑ i ∈ range t.spawned, live (t.pc i)
  owner : ∀ i, t.owner = some i → inside (t.pc i)
  threads : ∀ i, Th job c0 t log i (t.pc i)
  nodup : (log.map Prod.fst).Nodup
  shared : t.shared = (log.map Prod.snd).foldl add s0
  returned : t.returned = true → t.spawned = n ∧ t.wg = 0
  crashed : t.crashed = true → ∃ i, i < n ∧ job i (c0 i) = .panic

theorem Inv.init : Inv n job add c0 s0 (St.init c0 s0) [] where
  le := Nat.zero_le n
  wg := by simp [St.init]
  owner := by intro i h; cases h
  threads := by intro i; exact ⟨rfl, by simp⟩
  nodup := List.nodup_nil
  shared := rfl
  returned := by intro h; cases h
  crashed := by intro h; cases h

end

variable {n : Nat} {job : Nat → σ → Go (σ × Option ω)} {add : S → ω → S} {c0 : Nat → σ} {s0 : S}

/-- The other goroutines are not affected by a transition of goroutine `i` that keeps the cells of others, the log's entries of others,
the owner (unless they hold it) and the shared variable (unless they hold the lock). -/
theorem Th.frame {t u : St σ ω S} {log log' : List (Nat × ω)} {i : Nat} {p : PC ω S}
    (h : Th job c0 t log i p) (hs : t.spawned ≤ u.spawned) (hc : u.cells i = t.cells i)
    (hl : ∀ w, (i, w) ∈ log → (i, w) ∈ log') (hl' : i ∉ log.map Prod.fst → i ∉ log'.map Prod.fst)
    (ho : t.owner = some i → u.owner = some i ∧ u.shared = t.shared) : Th job c0 u log' i p := by
  cases p with
  | ready => exact ⟨hc.trans h.1, hl' h.2⟩
  | waiting w => exact ⟨Nat.lt_of_lt_of_le h.1 hs, by rw [hc]; exact h.2.1, hl' h.2.2⟩
  | holding w => exact ⟨Nat.lt_of_lt_of_le h.1 hs, by rw [hc]; exact h.2.1, hl' h.2.2.1, (ho h.2.2.2).1⟩
  | loaded w r =>
    exact ⟨Nat.lt_of_lt_of_le h.1 hs, by rw [hc]; exact h.2.1, hl' h.2.2.1, (ho h.2.2.2.1).1,
      h.2.2.2.2.trans (ho h.2.2.2.1).2.symm⟩
  | stored =>
    obtain ⟨h1, ⟨w, h2, h3⟩, h4⟩ := h
    exact ⟨Nat.lt_of_lt_of_le h1 hs, ⟨w, by rw [hc]; exact h2, hl w h3⟩, (ho h4).1⟩
  | fin =>
    obtain ⟨h1, ⟨h2, h3⟩ | ⟨w, h2, h3⟩⟩ := h
    · exact ⟨Nat.lt_of_lt_of_le h1 hs, Or.inl ⟨by rw [hc]; exact h2, hl' h3⟩⟩
    · exact ⟨Nat.lt_of_lt_of_le h1 hs, Or.inr ⟨w, by rw [hc]; exact h2, hl w h3⟩⟩
  | done =>
    obtain ⟨h1, ⟨h2, h3⟩ | ⟨w, h2, h3⟩⟩ := h
    · exact ⟨Nat.lt_of_lt_of_le h1 hs, Or.inl ⟨by rw [hc]; exact h2, hl' h3⟩⟩
    · exact ⟨Nat.lt_of_lt_of_le h1 hs, Or.inr ⟨w, by rw [hc]; exact h2, hl w h3⟩⟩

/-- A goroutine inside the critical section owns the mutex. -/
theorem Inv.owns {t : St σ ω S} {log : List (Nat × ω)} (h : Inv n job add c0 s0 t log) {i : Nat} (hi : inside (t.pc i)) :
    t.owner = some i := by
  have := h.threads i
  cases e : t.pc i with
  | holding w => rw [e] at this; exact this.2.2.2
  | loaded w r => rw [e] at this; exact this.2.2.2.1
  | stored => rw [e] at this; exact this.2.2
  | _ => rw [e] at hi; exact hi.elim

/-- Beyond `spawned` nothing has started. -/
theorem Inv.unstarted {t : St σ ω S} {log : List (Nat × ω)} (h : Inv n job add c0 s0 t log) {i : Nat} (hi : t.spawned ≤ i) :
    t.pc i = .ready := by
  have := h.threads i
  cases e : t.pc i with
  | ready => rfl
  | waiting w => rw [e] at this; exact absurd this.1 (Nat.not_lt.2 hi)
  | holding w => rw [e] at this; exact absurd this.1 (Nat.not_lt.2 hi)
  | loaded w r => rw [e] at this; exact absurd this.1 (Nat.not_lt.2 hi)
  | stored => rw [e] at this; exact absurd this.1 (Nat.not_lt.2 hi)
  | fin => rw [e] at this; exact absurd this.1 (Nat.not_lt.2 hi)
  | done => rw [e] at this; exact absurd this.1 (Nat.not_lt.2 hi)

/-- `wg` after a change of one goroutine that is started. -/
theorem wg_same {t : St σ ω S} {i : Nat} {p : PC ω S} (h : t.wg = ∑ j ∈ range t.spawned, live (t.pc j)) (hi : i < t.spawned)
    (h1 : live (t.pc i) = 1) (h2 : live p = 1) : t.wg = ∑ j ∈ range t.spawned, live (Function.update t.pc i p j) := by
  have := sum_update (range t.spawned) live t.pc i p (Finset.mem_range.2 hi)
  omega

theorem Inv.step {t u : St σ ω S} {log : List (Nat × ω)} (h : Inv n job add c0 s0 t log) (hs : Step n job add t u) :
    ∃ log', Inv n job add c0 s0 u log' := by
  cases hs with
  | spawn h1 h2 h3 =>
    refine ⟨log, ⟨h3, ?_, h.owner, ?_, h.nodup, h.shared, ?_, h.crashed⟩⟩
    · simp only [Finset.sum_range_succ]
      rw [← h.wg, h.unstarted (Nat.le_refl _)]; rfl
    · intro j; exact (h.threads j).frame (Nat.le_succ _) rfl (fun _ x => x) (fun x => x) (fun x => ⟨x, rfl⟩)
    · intro hr; rw [show t.returned = true from hr] at h1; cases h1
  | quiet i c h1 h2 h3 h4 h5 =>
    have hth := h.threads i
    rw [h4] at hth
    refine ⟨log, ⟨h.le, wg_same h.wg h3 (by rw [h4]; rfl) rfl, ?_, ?_, h.nodup, h.shared, ?_, h.crashed⟩⟩
    · intro j hj
      have := h.owner j hj
      by_cases e : j = i
      · subst e; rw [h4] at this; exact this.elim
      · simp only [Function.update_of_ne e]; exact this
    · intro j
      by_cases e : j = i
      · subst e
        simp only [Function.update_self]
        refine ⟨h3, Or.inl ⟨?_, hth.2⟩⟩
        simp only [Function.update_self]
        rw [← hth.1]; exact h5
      · simp only [Function.update_of_ne e]
        exact (h.threads j).frame (Nat.le_refl _) (by simp [Function.update_of_ne e]) (fun _ x => x) (fun x => x) (fun x => ⟨x, rfl⟩)
    · intro hr; rw [show t.returned = true from hr] at h1; cases h1
  | report i c w h1 h2 h3 h4 h5 =>
    have hth := h.threads i
    rw [h4] at hth
    refine ⟨log, ⟨h.le, wg_same h.wg h3 (by rw [h4]; rfl) rfl, ?_, ?_, h.nodup, h.shared, ?_, h.crashed⟩⟩
    · intro j hj
      have := h.owner j hj
      by_cases e : j = i
      · subst e; rw [h4] at this; exact this.elim
      · simp only [Function.update_of_ne e]; exact this
    · intro j
      by_cases e : j = i
      · subst e
        simp only [Function.update_self]
        refine ⟨h3, ?_, hth.2⟩
        simp only [Function.update_self]
        rw [← hth.1]; exact h5
      · simp only [Function.update_of_ne e]
        exact (h.threads j).frame (Nat.le_refl _) (by simp [Function.update_of_ne e]) (fun _ x => x) (fun x => x) (fun x => ⟨x, rfl⟩)
    · intro hr; rw [show t.returned = true from hr] at h1; cases h1
  | crash i h1 h2 h3 h4 h5 =>
    have hth := h.threads i
    rw [h4] at hth
    refine ⟨log, ⟨h.le, h.wg, h.owner, ?_, h.nodup, h.shared, ?_, ?_⟩⟩
    · intro j; exact (h.threads j).frame (Nat.le_refl _) rfl (fun _ x => x) (fun x => x) (fun x => ⟨x, rfl⟩)
    · intro hr; rw [show t.returned = true from hr] at h1; cases h1
    · intro _; exact ⟨i, Nat.lt_of_lt_of_le h3 h.le, by rw [← hth.1]; exact h5⟩
  | lock i w h1 h2 h4 h5 =>
    have hth := h.threads i
    rw [h4] at hth
    refine ⟨log, ⟨h.le, wg_same h.wg hth.1 (by rw [h4]; rfl) rfl, ?_, ?_, h.nodup, h.shared, ?_, h.crashed⟩⟩
    · intro j hj
      simp only [Option.some.injEq] at hj
      subst hj
      simp [inside]
    · intro j
      by_cases e : j = i
      · subst e
        simp only [Function.update_self]
        exact ⟨hth.1, hth.2.1, hth.2.2, rfl⟩
      · simp only [Function.update_of_ne e]
        exact (h.threads j).frame (Nat.le_refl _) rfl (fun _ x => x) (fun x => x) (fun x => by rw [h5] at x; cases x)
    · intro hr; rw [show t.returned = true from hr] at h1; cases h1
  | load i w h1 h2 h4 =>
    have hth := h.threads i
    rw [h4] at hth
    refine ⟨log, ⟨h.le, wg_same h.wg hth.1 (by rw [h4]; rfl) rfl, ?_, ?_, h.nodup, h.shared, ?_, h.crashed⟩⟩
    · intro j hj
      by_cases e : j = i
      · subst e; simp [inside]
      · simp only [Function.update_of_ne e]; exact h.owner j hj
    · intro j
      by_cases e : j = i
      · subst e
        simp only [Function.update_self]
        exact ⟨hth.1, hth.2.1, hth.2.2.1, hth.2.2.2, rfl⟩
      · simp only [Function.update_of_ne e]
        exact (h.threads j).frame (Nat.le_refl _) rfl (fun _ x => x) (fun x => x) (fun x => ⟨x, rfl⟩)
    · intro hr; rw [show t.returned = true from hr] at h1; cases h1
  | store i w r h1 h2 h4 =>
    have hth := h.threads i
    rw [h4] at hth
    refine ⟨log ++ [(i, w)], ⟨h.le, wg_same h.wg hth.1 (by rw [h4]; rfl) rfl, ?_, ?_, ?_, ?_, ?_, h.crashed⟩⟩
    · intro j hj
      by_cases e : j = i
      · subst e; simp [inside]
      · simp only [Function.update_of_ne e]; exact h.owner j hj
    · intro j
      by_cases e : j = i
      · subst e
        simp only [Function.update_self]
        exact ⟨hth.1, ⟨w, hth.2.1, by simp⟩, hth.2.2.2.1⟩
      · simp only [Function.update_of_ne e]
        refine (h.threads j).frame (Nat.le_refl _) rfl (fun _ x => List.mem_append_left _ x) (fun x => ?_) (fun x => ?_)
        · simp only [List.map_append, List.mem_append, List.map_cons, List.map_nil, List.mem_singleton, not_or]
          exact ⟨x, e⟩
        · rw [hth.2.2.2.1] at x
          exact absurd (Option.some.inj x).symm e
    · simp only [List.map_append, List.map_cons, List.map_nil]
      rw [List.nodup_append]
      refine ⟨h.nodup, by simp, ?_⟩
      intro a ha b hb e
      simp only [List.mem_singleton] at hb
      subst hb; subst e
      exact hth.2.2.1 ha
    · simp only [List.map_append, List.foldl_append, List.map_cons, List.map_nil, List.foldl_cons, List.foldl_nil]
      rw [hth.2.2.2.2, h.shared]
    · intro hr; rw [show t.returned = true from hr] at h1; cases h1
  | unlock i h1 h2 h4 =>
    have hth := h.threads i
    rw [h4] at hth
    refine ⟨log, ⟨h.le, wg_same h.wg hth.1 (by rw [h4]; rfl) rfl, ?_, ?_, h.nodup, h.shared, ?_, h.crashed⟩⟩
    · intro j hj; cases hj
    · intro j
      by_cases e : j = i
      · subst e
        simp only [Function.update_self]
        exact ⟨hth.1, Or.inr hth.2.1⟩
      · simp only [Function.update_of_ne e]
        refine (h.threads j).frame (Nat.le_refl _) rfl (fun _ x => x) (fun x => x) (fun x => ?_)
        rw [hth.2.2] at x
        exact absurd (Option.some.inj x).symm e
    · intro hr; rw [show t.returned = true from hr] at h1; cases h1
  | wgDone i h1 h2 h4 =>
    have hth := h.threads i
    rw [h4] at hth
    refine ⟨log, ⟨h.le, ?_, ?_, ?_, h.nodup, h.shared, ?_, h.crashed⟩⟩
    · have := sum_update (range t.spawned) live t.pc i .done (Finset.mem_range.2 hth.1)
      rw [h4] at this
      have e1 : live (PC.fin : PC ω S) = 1 := rfl
      have e2 : live (PC.done : PC ω S) = 0 := rfl
      simp only
      rw [h.wg]
      omega
    · intro j hj
      have := h.owner j hj
      by_cases e : j = i
      · subst e; rw [h4] at this; exact this.elim
      · simp only [Function.update_of_ne e]; exact this
    · intro j
      by_cases e : j = i
      · subst e
        simp only [Function.update_self]
        exact ⟨hth.1, hth.2⟩
      · simp only [Function.update_of_ne e]
        exact (h.threads j).frame (Nat.le_refl _) rfl (fun _ x => x) (fun x => x) (fun x => ⟨x, rfl⟩)
    · intro hr; rw [show t.returned = true from hr] at h1; cases h1
  | wait h1 h2 h3 h4 =>
    refine ⟨log, ⟨h.le, h.wg, h.owner, ?_, h.nodup, h.shared, fun _ => ⟨h3, h4⟩, h.crashed⟩⟩
    intro j; exact (h.threads j).frame (Nat.le_refl _) rfl (fun _ x => x) (fun x => x) (fun x => ⟨x, rfl⟩)

theorem Inv.steps {k : Nat} {u : St σ ω S} (hs : Steps n job add k (St.init c0 s0) u) : ∃ log, Inv n job add c0 s0 u log := by
  generalize e : St.init c0 s0 = t at hs
  induction hs with
  | refl => subst e; exact ⟨[], Inv.init n job add c0 s0⟩
  | step _ hst ih =>
    obtain ⟨log, h⟩ := ih e
    exact h.step hst

/-- What a goroutine reports. -/
def outOf (job : Nat → σ → Go (σ × Option ω)) (c0 : Nat → σ) (i : Nat) : Option ω :=
  match job i (c0 i) with
  | .val (_, o) => o
  | _ => none

/-- The end of an execution that returned. -/
theorem returned_spec {k : Nat} {u : St σ ω S} (hs : Steps n job add k (St.init c0 s0) u) (hr : u.returned = true) :
    (∀ i, i < n → job i (c0 i) = .val (u.cells i, outOf job c0 i)) ∧ (∀ i, n ≤ i → u.cells i = c0 i) ∧
      ∃ l : List ω, l.Perm ((List.range n).filterMap (outOf job c0)) ∧ u.shared = l.foldl add s0 := by
  obtain ⟨log, h⟩ := Inv.steps hs
  obtain ⟨hsp, hwg⟩ := h.returned hr
  have hz := h.wg
  rw [hwg, eq_comm, Finset.sum_eq_zero_iff] at hz
  have hdone : ∀ i, i < n → u.pc i = .done := by
    intro i hi
    have := hz i (Finset.mem_range.2 (hsp ▸ hi))
    cases e : u.pc i with
    | done => rfl
    | _ => rw [e] at this; cases this
  have hj : ∀ i, i < n → job i (c0 i) = .val (u.cells i, outOf job c0 i) ∧
      ((outOf job c0 i = none ∧ i ∉ log.map Prod.fst) ∨ ∃ w, outOf job c0 i = some w ∧ (i, w) ∈ log) := by
    intro i hi
    have := h.threads i
    rw [hdone i hi] at this
    obtain ⟨_, ⟨h2, h3⟩ | ⟨w, h2, h3⟩⟩ := this
    · have e : outOf job c0 i = none := by simp [outOf, h2]
      exact ⟨by rw [e]; exact h2, Or.inl ⟨e, h3⟩⟩
    · have e : outOf job c0 i = some w := by simp [outOf, h2]
      exact ⟨by rw [e]; exact h2, Or.inr ⟨w, e, h3⟩⟩
  refine ⟨fun i hi => (hj i hi).1, fun i hi => ?_, log.map Prod.snd, ?_, h.shared⟩
  · have := h.threads i
    rw [h.unstarted (hsp ▸ hi)] at this
    exact this.1
  · have hmem : ∀ i, i ∈ log.map Prod.fst → i < n := by
      intro i hi
      by_contra c
      have := h.threads i
      rw [h.unstarted (by omega)] at this
      exact this.2 hi
    have hlog : ∀ p ∈ log, outOf job c0 p.1 = some p.2 := by
      intro p hp
      have hi := hmem p.1 (List.mem_map_of_mem hp)
      rcases (hj p.1 hi).2 with ⟨_, h3⟩ | ⟨w, h2, h3⟩
      · exact absurd (List.mem_map_of_mem hp) h3
      · have : p = (p.1, w) := List.inj_on_of_nodup_map h.nodup hp h3 rfl
        rw [h2, this]
    have e1 : log.map Prod.snd = (log.map Prod.fst).filterMap (outOf job c0) := by
      rw [List.filterMap_map]
      have : ∀ l : List (Nat × ω), (∀ p ∈ l, outOf job c0 p.1 = some p.2) → l.map Prod.snd = l.filterMap (outOf job c0 ∘ Prod.fst) := by
        intro l
        induction l with
        | nil => intro _; rfl
        | cons p l ih =>
          intro hp
          rw [List.filterMap_cons_some (f := outOf job c0 ∘ Prod.fst) (b := p.2) (hp p (by simp)), List.map_cons, ih (fun q hq => hp q (by simp [hq]))]
      exact this log hlog
    have e2 : ((List.range n).filter (fun i => (outOf job c0 i).isSome)).filterMap (outOf job c0) = (List.range n).filterMap (outOf job c0) := by
      rw [List.filterMap_filter]
      congr 1
      funext i
      cases outOf job c0 i <;> simp
    rw [e1, ← e2]
    apply List.Perm.filterMap
    rw [List.perm_ext_iff_of_nodup h.nodup (List.nodup_range.filter _)]
    intro i
    rw [List.mem_filter, List.mem_range]
    constructor
    · intro hi
      refine ⟨hmem i hi, ?_⟩
      rcases (hj i (hmem i hi)).2 with ⟨_, h3⟩ | ⟨w, h2, _⟩
      · exact absurd hi h3
      · simp [h2]
    · rintro ⟨hi, ho⟩
      rcases (hj i hi).2 with ⟨h2, _⟩ | ⟨w, _, h3⟩
      · rw [h2] at ho; simp at ho
      · exact List.mem_map_of_mem (f := Prod.fst) h3

/-! ## Termination and progress -/

/-- Transitions left. -/
def measure (n : Nat) (t : St σ ω S) : Nat :=
  (n - t.spawned) + (∑ i ∈ range n, left (t.pc i)) + (if t.returned then 0 else 1) + (if t.crashed then 0 else 1)

theorem Inv.decreases {t u : St σ ω S} {log : List (Nat × ω)} (h : Inv n job add c0 s0 t log) (hs : Step n job add t u) :
    measure n u < measure n t := by
  have hle := h.le
  have key : ∀ (i : Nat) (p : PC ω S), i < n → left p < left (t.pc i) →
      ∑ j ∈ range n, left (Function.update t.pc i p j) < ∑ j ∈ range n, left (t.pc j) := by
    intro i p hi hp
    have := sum_update (range n) left t.pc i p (Finset.mem_range.2 hi)
    omega
  have hpc : ∀ i, t.pc i ≠ .ready → i < n := by
    intro i hi
    by_contra c
    exact hi (h.unstarted (by omega))
  cases hs with
  | spawn h1 h2 h3 => simp only [measure, h1, h2]; simp; omega
  | quiet i c h1 h2 h3 h4 h5 =>
    have := key i .fin (by omega) (by rw [h4]; simp [left])
    simp only [measure, h1, h2]; omega
  | report i c w h1 h2 h3 h4 h5 =>
    have := key i (.waiting w) (by omega) (by rw [h4]; simp [left])
    simp only [measure, h1, h2]; omega
  | crash i h1 h2 h3 h4 h5 => simp only [measure, h1, h2]; simp
  | lock i w h1 h2 h4 h5 =>
    have := key i (.holding w) (hpc i (by rw [h4]; simp)) (by rw [h4]; simp [left])
    simp only [measure, h1, h2]; omega
  | load i w h1 h2 h4 =>
    have := key i (.loaded w t.shared) (hpc i (by rw [h4]; simp)) (by rw [h4]; simp [left])
    simp only [measure, h1, h2]; omega
  | store i w r h1 h2 h4 =>
    have := key i .stored (hpc i (by rw [h4]; simp)) (by rw [h4]; simp [left])
    simp only [measure, h1, h2]; omega
  | unlock i h1 h2 h4 =>
    have := key i .fin (hpc i (by rw [h4]; simp)) (by rw [h4]; simp [left])
    simp only [measure, h1, h2]; omega
  | wgDone i h1 h2 h4 =>
    have := key i .done (hpc i (by rw [h4]; simp)) (by rw [h4]; simp [left])
    simp only [measure, h1, h2]; omega
  | wait h1 h2 h3 h4 => simp only [measure, h1, h2]; simp

/-- No execution is longer than `7 n + 2` transitions. -/
theorem steps_bound {k : Nat} {u : St σ ω S} (hs : Steps n job add k (St.init c0 s0) u) : k + measure n u ≤ 7 * n + 2 := by
  generalize e : St.init c0 s0 = t at hs
  induction hs with
  | refl =>
    subst e
    simp [measure, St.init, left]
    omega
  | step hst' hst ih =>
    subst e
    obtain ⟨log, h⟩ := Inv.steps hst'
    have := h.decreases hst
    have := ih rfl
    omega

/-- If no call of a metric hangs, the only states without a transition are those where the call has returned or crashed. -/
theorem Inv.progress {t : St σ ω S} {log : List (Nat × ω)} (h : Inv n job add c0 s0 t log) (hh : ∀ i, i < n → job i (c0 i) ≠ .hang)
    (h1 : t.returned = false) (h2 : t.crashed = false) : ∃ u, Step n job add t u := by
  by_cases c1 : t.spawned < n
  · exact ⟨_, .spawn t h1 h2 c1⟩
  have hsp : t.spawned = n := by have := h.le; omega
  by_cases c2 : t.wg = 0
  · exact ⟨_, .wait t h1 h2 hsp c2⟩
  have : ∃ i, i < n ∧ live (t.pc i) ≠ 0 := by
    by_contra c
    apply c2
    rw [h.wg]
    apply Finset.sum_eq_zero
    intro i hi
    by_contra c'
    exact c ⟨i, hsp ▸ Finset.mem_range.1 hi, c'⟩
  obtain ⟨i, hi, hl⟩ := this
  -- a goroutine inside the critical section can always move
  have hin : ∀ j, inside (t.pc j) → ∃ u, Step n job add t u := by
    intro j hj
    cases e : t.pc j with
    | holding w => exact ⟨_, .load t j w h1 h2 e⟩
    | loaded w r => exact ⟨_, .store t j w r h1 h2 e⟩
    | stored => exact ⟨_, .unlock t j h1 h2 e⟩
    | _ => rw [e] at hj; exact hj.elim
  cases e : t.pc i with
  | ready =>
    have hth := h.threads i
    rw [e] at hth
    cases ej : job i (c0 i) with
    | val p =>
      obtain ⟨c, o⟩ := p
      rw [← hth.1] at ej
      cases o with
      | none => exact ⟨_, .quiet t i c h1 h2 (by omega) e ej⟩
      | some w => exact ⟨_, .report t i c w h1 h2 (by omega) e ej⟩
    | panic => rw [← hth.1] at ej; exact ⟨_, .crash t i h1 h2 (by omega) e ej⟩
    | hang => exact absurd ej (hh i hi)
  | waiting w =>
    cases eo : t.owner with
    | none => exact ⟨_, .lock t i w h1 h2 e eo⟩
    | some j => exact hin j (h.owner j eo)
  | fin => exact ⟨_, .wgDone t i h1 h2 e⟩
  | done => rw [e] at hl; exact absurd rfl hl
  | _ => exact hin i (by rw [e]; trivial)

/-- Executions can be extended to the end. -/
theorem exists_end (hh : ∀ i, i < n → job i (c0 i) ≠ .hang) : ∀ (m k : Nat) (t : St σ ω S),
    Steps n job add k (St.init c0 s0) t → measure n t ≤ m →
    ∃ k' u, Steps n job add k' (St.init c0 s0) u ∧ (u.returned = true ∨ u.crashed = true) := by
  intro m
  induction m with
  | zero =>
    intro k t hs hm
    refine ⟨k, t, hs, ?_⟩
    by_contra c
    obtain ⟨log, h⟩ := Inv.steps hs
    obtain ⟨u, hu⟩ := h.progress hh (by simpa using fun e => c (Or.inl e)) (by simpa using fun e => c (Or.inr e))
    have := h.decreases hu
    omega
  | succ m ih =>
    intro k t hs hm
    by_cases c : t.returned = true ∨ t.crashed = true
    · exact ⟨k, t, hs, c⟩
    · obtain ⟨log, h⟩ := Inv.steps hs
      obtain ⟨u, hu⟩ := h.progress hh (by simpa using fun e => c (Or.inl e)) (by simpa using fun e => c (Or.inr e))
      have := h.decreases hu
      exact ih (k + 1) u (.step hs hu) (by omega)

end Verif.Aggregate
