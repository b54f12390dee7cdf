import Verif.Props.Factorials
import Verif.Proofs.JointFactorials

/-! # C61: cores of both packages used by different goroutines

Each goroutine pushes values to its own `moment.Core` or its own `joint.Core`. `Job.alone` is the result of doing this alone. -/

namespace Verif.Props
open Verif Verif.Spec Verif.Fact Verif.Fact.J

variable {T : Type} [DecidableEq T] {K : Type} [Field K] [GoOrd K]

/-- The core of the job comes from `NewCore`, and its exponents are as given. -/
inductive MadeWith (P : Int → Prop) : Job K → Prop
  | moment (cfg : Moment.Config K) (c : Moment.Core K) (xs : List K) : Moment.newCore cfg = .ok c → (∀ k ∈ cfg.sums.getD [], P k) →
      MadeWith P (.moment c xs)
  | joint (cfg : Joint.Config K) (c : Joint.Core K) (xs : List (List K)) : Joint.newCore cfg = .val (.ok c) →
      (∀ t ∈ cfg.sums.getD [], ∀ k ∈ t, P k) → MadeWith P (.joint c xs)

theorem MadeWith.within {n : Nat} (hn : 1 ≤ n) {j : Job K} (h : MadeWith (fun k => k ≤ (n : Int)) j) : j.asks.Within (n + 1) := by
  cases h with
  | moment cfg c xs hc hs => exact (Fact.pushesA_within (by omega) (newCore_len hc hs) xs).bind fun _ _ => trivial
  | joint cfg c xs hc hs =>
    refine (J.pushesA_within (c := c) (fun t ht k hk => ?_) xs).bind fun _ _ => trivial
    rw [newCore_tuples hc] at ht
    have := hs t ht k hk
    push_cast
    omega

/-- The property fails for `joint.Core` too: two goroutines with a core each (the sum with exponents 9 and 1) push one pair; one of them
panics. Alone it does not. -/
theorem C61_joint_refuted : ∃ cfg : Joint.Config ℚ, ∃ c, Joint.newCore cfg = .val (.ok c) ∧
    ∃ w : World (Fin 2) (Out ℚ), Steps (World.start Tab.init fun _ => (Job.joint c [[1, 1]]).asks) w ∧ w.loc 1 = .run (.done .panic) ∧
      ∃ c', J.pushes c [[1, 1]] = .val c' ∧ Joint.sum c' [9, 1] = .ok 0 := by
  refine ⟨⟨some [[9, 1]], some 0, some 2, none⟩, _, rfl, _, World.exec_steps (.refl _) [0, 0, 0, 1, 1, 1, 1, 1, 1, 1, 1, 1, 0, 1], ?_, ?_⟩
  · rfl
  · exact ⟨_, rfl, by decide +kernel⟩

/-- Any number of goroutines, cores of both packages, exponents at most 7: no interference, and no data race. Missing: larger exponents,
for which the property fails. -/
theorem C61_mixed_small_partial (job : T → Job K) (hj : ∀ t, MadeWith (fun k => k ≤ 7) (job t)) (w : World T (Out K))
    (h : Steps (World.start Tab.init fun t => (job t).asks) w) : SameAsAlone w (fun t => (job t).alone) ∧ ∀ t, ¬ Writes (w.loc t) := by
  have hw : ∀ t, (job t).asks.Within Tab.init.hdr.len := fun t => (hj t).within (n := 7) (by decide)
  refine ⟨fun t r hr => ?_, fun t => ?_⟩
  · have hi := ((FInv.start (g := t) Good.init le_rfl fun u _ => hw u).steps h).loc t
    rw [hr] at hi
    exact hi.1.trans (Job.asks_eval _)
  · rcases (tab_steps Good.init hw h).2 t with ⟨p, hp, _⟩ | ⟨n, k, hp, _⟩ <;> · rw [hp]; exact id

/-- One goroutine with a core of either package and arbitrary exponents, the others with exponents at most 7. -/
theorem C61_mixed_one_partial (g : T) (job : T → Job K) (hj : ∀ t, t ≠ g → MadeWith (fun k => k ≤ 7) (job t)) (w : World T (Out K))
    (h : Steps (World.start Tab.init fun t => (job t).asks) w) : SameAsAlone w (fun t => (job t).alone) := by
  intro t r hr
  have hi := ((FInv.start (g := g) (L := 8) Good.init le_rfl fun u hu => (hj u hu).within (n := 7) (by decide)).steps h).loc t
  rw [hr] at hi
  exact hi.1.trans (Job.asks_eval _)

/-- After `p` ran alone, cores of both packages whose exponents are in the table do not interfere. -/
theorem C61_mixed_grown_partial {α : Type} (p : Ask α) (w0 : World Unit α) (h0 : Steps (World.start Tab.init fun _ => p) w0)
    (job : T → Job K) (hj : ∀ t, MadeWith (fun k => k < (w0.tab.hdr.len : Int)) (job t)) (w : World T (Out K))
    (h : Steps (World.start w0.tab fun t => (job t).asks) w) : SameAsAlone w (fun t => (job t).alone) ∧ ∀ t, ¬ Writes (w.loc t) := by
  have hg := (FInv.start (g := ()) (L := 8) (P := fun _ => p) Good.init le_rfl fun t ht => absurd rfl ht).steps h0
  have h8 := hg.len
  obtain ⟨n, hn⟩ : ∃ n, w0.tab.hdr.len = n + 1 := ⟨w0.tab.hdr.len - 1, by omega⟩
  have hw : ∀ t, (job t).asks.Within w0.tab.hdr.len := fun t => by
    rw [hn]
    refine MadeWith.within (by omega) ?_
    have := hj t
    rw [hn] at this
    have e : (fun k : Int => k < ((n + 1 : Nat) : Int)) = fun k => k ≤ (n : Int) := by
      funext k
      push_cast
      exact propext Int.lt_add_one_iff
    rwa [e] at this
  refine ⟨fun t r hr => ?_, fun t => ?_⟩
  · have hi := ((FInv.start (g := t) hg.good le_rfl fun u _ => hw u).steps h).loc t
    rw [hr] at hi
    exact hi.1.trans (Job.asks_eval _)
  · rcases (tab_steps hg.good hw h).2 t with ⟨p, hp, _⟩ | ⟨n, k, hp, _⟩ <;> · rw [hp]; exact id

/-- The joint sum is there. -/
def ShownJ (t : Joint.Tuple) (v : ℚ) (r : Local (Out ℚ)) : Bool :=
  match r with
  | .run (.done (.val (.joint c))) => decide (Joint.sum c t = .ok v)
  | _ => false

theorem ShownJ.spec {t : Joint.Tuple} {v : ℚ} {r : Local (Out ℚ)} (h : ShownJ t v r = true) :
    ∃ c, r = .run (.done (.val (.joint c))) ∧ Joint.sum c t = .ok v := by
  unfold ShownJ at h
  split at h
  · exact ⟨_, rfl, of_decide_eq_true h⟩
  · cases h

/-- Two goroutines, a `moment.Core` with the fourth power and a `joint.Core` with exponents 2 and 1; the second one runs to the end, after
the first has started. -/
example : ∃ job : Fin 2 → Job ℚ, (∀ t, MadeWith (fun k => k ≤ 7) (job t)) ∧
    ∃ w : World (Fin 2) (Out ℚ), Steps (World.start Tab.init fun t => (job t).asks) w ∧
      ∃ c, w.loc 1 = .run (.done (.val (.joint c))) ∧ Joint.sum c [2, 1] = .ok (35 / 9) := by
  refine ⟨fun t => if t = 0 then .moment (Moment.mk ⟨some [4], some 3, none⟩) [1, 2, 5]
      else .joint (match Joint.newCore (⟨some [[2, 1]], some 3, some 2, none⟩ : Joint.Config ℚ) with
        | .val (.ok c) => c
        | _ => ⟨[], [], fun _ => none, fun _ => none, 0, 0, none, Ring.new 0⟩) [[0, 0], [1, 1], [0, 2], [3, 4]], ?_, _,
    World.exec_steps (.refl _) ([0] ++ List.replicate 600 1), ShownJ.spec (by decide +kernel)⟩
  intro t
  match t with
  | 0 => exact .moment ⟨some [4], some 3, none⟩ _ _ rfl (by decide)
  | 1 => exact .joint ⟨some [[2, 1]], some 3, some 2, none⟩ _ _ rfl (by decide)

end Verif.Props
