import Verif.Spec.Clear

/-! # Relating the results of two computations -/

namespace Verif
open Verif.Spec

/-- Both return related values, or both panic, or both run out of fuel. -/
def GoR {α β : Type} (R : α → β → Prop) : Go α → Go β → Prop
  | .val a, .val b => R a b
  | .panic, .panic => True
  | .hang, .hang => True
  | _, _ => False

theorem GoR.bind {α β γ δ : Type} {R : α → β → Prop} {S : γ → δ → Prop} {x : Go α} {y : Go β} {f : α → Go γ} {g : β → Go δ}
    (h : GoR R x y) (hf : ∀ a b, R a b → GoR S (f a) (g b)) : GoR S (x >>= f) (y >>= g) := by
  cases x <;> cases y <;> first | exact hf _ _ h | exact h.elim | trivial

theorem GoR.mono {α β : Type} {R S : α → β → Prop} {x : Go α} {y : Go β} (h : GoR R x y) (hi : ∀ a b, R a b → S a b) : GoR S x y := by
  cases x <;> cases y <;> first | exact hi _ _ h | exact h.elim | trivial

theorem GoR.refl {α : Type} {R : α → α → Prop} (hR : ∀ a, R a a) (x : Go α) : GoR R x x := by
  cases x <;> first | exact hR _ | trivial

theorem GoR.eq {α : Type} {x y : Go α} (h : GoR Eq x y) : x = y := by
  cases x <;> cases y <;> first | exact congrArg _ h | exact h.elim | rfl

/-- A relation preserved by single steps relates whole runs; the logs differ by a fixed prefix. -/
theorem runOps_sim {S A : Type} {step : S → A → Go (S × Option Err)} {R : S → S → Prop}
    (hstep : ∀ a b o, R a b → GoR (fun x y => R x.1 y.1 ∧ x.2 = y.2) (step a o) (step b o)) (es : List Err) :
    ∀ ops a b la lb, R a b → la = es ++ lb →
      Agree R es (Go.runOps (logged step) (a, la) ops) (Go.runOps (logged step) (b, lb) ops) := by
  intro ops
  induction ops with
  | nil => intro a b la lb h e; exact ⟨h, e⟩
  | cons o ops ih =>
    intro a b la lb h e
    have h1 := hstep a b o h
    simp only [Go.runOps, logged]
    rcases e1 : step a o with ⟨a', x⟩ | _ | _ <;> rcases e2 : step b o with ⟨b', y⟩ | _ | _ <;> rw [e1, e2] at h1
    · obtain ⟨h2, h3⟩ := h1
      simp only at h2 h3
      subst h3
      exact ih a' b' _ _ h2 (by simp [e])
    all_goals first | exact h1.elim | trivial

theorem agree_mono {S : Type} {R R' : S → S → Prop} {es : List Err} {x y : Go (S × List Err)} (h : Agree R es x y)
    (hi : ∀ a b, R a b → R' a b) : Agree R' es x y := by
  rcases x with ⟨a, la⟩ | _ | _ <;> rcases y with ⟨b, lb⟩ | _ | _
  · exact ⟨hi _ _ h.1, h.2⟩
  all_goals first | exact h.elim | trivial

/-- `Resets` from a bisimulation. -/
theorem resets_of_sim {S A : Type} {step : S → A → Go (S × Option Err)} {clr : A} {s : S} {same : S → S → Prop}
    (R : S → S → Prop) (hstep : ∀ a b o, R a b → GoR (fun x y => R x.1 y.1 ∧ x.2 = y.2) (step a o) (step b o))
    (hclear : ∀ before s' es, Go.runOps (logged step) (s, []) before = .val (s', es) → ∃ t, step s' clr = .val (t, none) ∧ R t s)
    (hobs : ∀ a b, R a b → same a b) : Resets step clr s same := by
  intro before s' es h after
  obtain ⟨t, ht, hr⟩ := hclear before s' es h
  have e : Go.runOps (logged step) (s, []) (before ++ clr :: after) = Go.runOps (logged step) (t, es) after := by
    rw [Go.runOps_append, h]
    simp only [Go.runOps, logged, ht]
    simp
  rw [e]
  exact agree_mono (runOps_sim hstep es after t s es [] hr (by simp)) hobs

/-- `Resets` when `Clear` gives back the very state of a new instance. -/
theorem resets_of_eq {S A : Type} {step : S → A → Go (S × Option Err)} {clr : A} {s : S}
    (hclear : ∀ before s' es, Go.runOps (logged step) (s, []) before = .val (s', es) → step s' clr = .val (s, none)) :
    Resets step clr s Eq :=
  resets_of_sim Eq (fun a b o h => by subst h; exact GoR.refl (fun x => ⟨rfl, rfl⟩) _)
    (fun before s' es h => ⟨s, hclear before s' es h, rfl⟩) (fun _ _ h => h)

/-- The states a step function can lead to. -/
def Reach {S A : Type} (step : S → A → Go (S × Option Err)) (s s' : S) : Prop :=
  ∃ ops es, Go.runOps (logged step) (s, []) ops = .val (s', es)

theorem Reach.refl {S A : Type} {step : S → A → Go (S × Option Err)} (s : S) : Reach step s s := ⟨[], [], rfl⟩

theorem Reach.snoc {S A : Type} {step : S → A → Go (S × Option Err)} {s s1 s2 : S} {a : A} {o : Option Err} (h : Reach step s s1)
    (e : step s1 a = .val (s2, o)) : Reach step s s2 := by
  obtain ⟨ops, es, h⟩ := h
  refine ⟨ops ++ [a], es ++ o.toList, ?_⟩
  rw [Go.runOps_append, h]
  simp [Go.runOps, logged, e]

/-- Invariant rule for logged runs that return. -/
theorem logged_inv {S A : Type} {step : S → A → Go (S × Option Err)} {P : S → Prop}
    (hs : ∀ s a s' o, P s → step s a = .val (s', o) → P s') :
    ∀ ops s l s' es, P s → Go.runOps (logged step) (s, l) ops = .val (s', es) → P s' := by
  intro ops
  induction ops with
  | nil => intro s l s' es h e; simp [Go.runOps] at e; rw [← e.1]; exact h
  | cons a ops ih =>
    intro s l s' es h e
    cases e1 : step s a with
    | panic => simp [Go.runOps, logged, e1] at e
    | hang => simp [Go.runOps, logged, e1] at e
    | val r =>
      obtain ⟨s1, o⟩ := r
      simp only [Go.runOps, logged, e1, Go.val_bind, Go.pure_eq] at e
      exact ih s1 _ s' es (hs s a s1 o h e1) e

end Verif
