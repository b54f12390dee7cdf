import Verif.Spec.Independent
import Verif.Proofs.Factorials
import Verif.Proofs.Decide
import Mathlib.Data.Rat.Floor

/-! # C61: cores used by different goroutines

Each goroutine pushes values to its own core; the cores share only the table of factorials of `util/math/math.go`. `pushes c xs` is the
result of doing this alone. -/

namespace Verif.Props
open Verif Verif.Spec Verif.Fact

variable {T : Type} [DecidableEq T] {K : Type} [Field K] [GoOrd K]

theorem newCore_len {cfg : Moment.Config K} {c : Moment.Core K} (h : Moment.newCore cfg = .ok c) {n : Nat}
    (hs : ∀ k ∈ cfg.sums.getD [], k ≤ (n : Int)) : c.len ≤ n + 1 := by
  unfold Moment.newCore at h
  split at h
  · cases h
  · cases h
    exact Moment.len_le hs

theorem Steps_good {α : Type} {p : Ask α} {w : World Unit α} (h : Steps (World.start Tab.init fun _ => p) w) : Good w.tab w.tab.hdr :=
  ((FInv.start (g := ()) (L := 0) Good.init (Nat.zero_le _) fun t ht => absurd rfl ht).steps h).good

/-- The property fails: two goroutines with a core each (sums up to the ninth power, no window) push one value; one of them panics. Alone
it does not. -/
theorem C61_refuted_panic : ∃ cfg : Moment.Config ℚ, ∃ c, Moment.newCore cfg = .ok c ∧
    ∃ w : World (Fin 2) (Moment.Core ℚ), Steps (World.start Tab.init fun _ => pushesA c [1]) w ∧ w.loc 1 = .run (.done .panic) ∧
      ∃ c', pushes c [1] = .val c' ∧ Moment.sum c' 9 = .ok 0 := by
  refine ⟨⟨some [9], some 0, none⟩, Moment.mk ⟨some [9], some 0, none⟩, rfl, _, World.exec_steps (.refl _)
    [0, 0, 0, 1, 1, 1, 1, 1, 1, 1, 1, 1, 0, 1], ?_, ?_⟩
  · rfl
  · exact ⟨_, rfl, by decide +kernel⟩

/-- The sums of order `k`, if both are there, differ. -/
def Differ (k : Int) (r : Local (Moment.Core ℚ)) (r' : Go (Moment.Core ℚ)) : Bool :=
  match r, r' with
  | .run (.done (.val c)), .val c' => decide (Moment.sum c k ≠ Moment.sum c' k)
  | _, _ => false

theorem Differ.spec {k : Int} {r : Local (Moment.Core ℚ)} {r' : Go (Moment.Core ℚ)} (h : Differ k r r' = true) :
    ∃ c c', r = .run (.done (.val c)) ∧ r' = .val c' ∧ Moment.sum c k ≠ Moment.sum c' k := by
  unfold Differ at h
  split at h
  · exact ⟨_, _, rfl, rfl, of_decide_eq_true h⟩
  · cases h

/-- The property fails: the table is wrong for ever, and so are sums computed later, in both goroutines. -/
theorem C61_refuted_value : ∃ cfg : Moment.Config ℚ, ∃ c, Moment.newCore cfg = .ok c ∧
    ∃ w : World (Fin 2) (Moment.Core ℚ), Steps (World.start Tab.init fun _ => pushesA c [0, 1, 3]) w ∧
      ∀ t, ∃ c' c'', w.loc t = .run (.done (.val c')) ∧ pushes c [0, 1, 3] = .val c'' ∧ Moment.sum c' 9 ≠ Moment.sum c'' 9 := by
  refine ⟨⟨some [9], some 0, none⟩, Moment.mk ⟨some [9], some 0, none⟩, rfl, _, World.exec_steps (.refl _)
    ([0, 0, 1, 1, 1, 1] ++ List.replicate 600 0 ++ List.replicate 600 1), fun t => Differ.spec ?_⟩
  revert t
  decide +kernel

/-- The sum of order `k` is there. -/
def Shown (k : Int) (v : ℚ) (r : Local (Moment.Core ℚ)) : Bool :=
  match r with
  | .run (.done (.val c)) => decide (Moment.sum c k = .ok v)
  | _ => false

theorem Shown.spec {k : Int} {v : ℚ} {r : Local (Moment.Core ℚ)} (h : Shown k v r = true) :
    ∃ c, r = .run (.done (.val c)) ∧ Moment.sum c k = .ok v := by
  unfold Shown at h
  split at h
  · exact ⟨_, rfl, of_decide_eq_true h⟩
  · cases h

/-- Any number of goroutines, exponents at most 7: no interference, and no data race (nobody ever writes). Missing: larger exponents, for
which the property fails. -/
theorem C61_small_partial (cfg : T → Moment.Config K) (c : T → Moment.Core K) (hc : ∀ t, Moment.newCore (cfg t) = .ok (c t))
    (hs : ∀ t, ∀ k ∈ (cfg t).sums.getD [], k ≤ 7) (xs : T → List K) (w : World T (Moment.Core K))
    (h : Steps (World.start Tab.init fun t => pushesA (c t) (xs t)) w) :
    SameAsAlone w (fun t => pushes (c t) (xs t)) ∧ ∀ t, ¬ Writes (w.loc t) := by
  have hw : ∀ t, (pushesA (c t) (xs t)).Within 8 := fun t => pushesA_within (by decide) (newCore_len (n := 7) (hc t) (hs t)) _
  have hw' : ∀ t, (pushesA (c t) (xs t)).Within Tab.init.hdr.len := hw
  refine ⟨fun t r hr => ?_, fun t => ?_⟩
  · have hi := ((FInv.start (g := t) Good.init le_rfl fun u _ => hw' u).steps h).loc t
    rw [hr] at hi
    exact hi.1.trans (pushesA_eval ..)
  · rcases (tab_steps Good.init hw' h).2 t with ⟨p, hp, _⟩ | ⟨n, k, hp, _⟩ <;> · rw [hp]; exact id

example : ∃ c, Moment.newCore (⟨some [2, 7], some 3, none⟩ : Moment.Config ℚ) = .ok c ∧
    ∃ w : World (Fin 2) (Moment.Core ℚ), Steps (World.start Tab.init fun _ => pushesA c [0, 1, 3]) w ∧
      ∃ c', w.loc 0 = .run (.done (.val c')) ∧ Moment.sum c' 7 = .ok (6860 / 243) :=
  ⟨_, rfl, _, World.exec_steps (.refl _) (List.replicate 600 0), Shown.spec (by decide +kernel)⟩

/-- One goroutine with arbitrary exponents, the others with exponents at most 7. -/
theorem C61_one_partial (g : T) (cfg : T → Moment.Config K) (c : T → Moment.Core K) (hc : ∀ t, Moment.newCore (cfg t) = .ok (c t))
    (hs : ∀ t, t ≠ g → ∀ k ∈ (cfg t).sums.getD [], k ≤ 7) (xs : T → List K) (w : World T (Moment.Core K))
    (h : Steps (World.start Tab.init fun t => pushesA (c t) (xs t)) w) : SameAsAlone w (fun t => pushes (c t) (xs t)) := by
  intro t r hr
  have hi := ((FInv.start (g := g) (L := 8) Good.init le_rfl fun u hu =>
    pushesA_within (by decide) (newCore_len (n := 7) (hc u) (hs u hu)) _).steps h).loc t
  rw [hr] at hi
  exact hi.1.trans (pushesA_eval ..)

example : ∃ c, Moment.newCore (⟨some [9], some 3, none⟩ : Moment.Config ℚ) = .ok c ∧
    ∃ w : World (Fin 2) (Moment.Core ℚ), Steps (World.start Tab.init fun _ => pushesA c [0, 1, 3]) w ∧ w.tab.hdr.len = 10 ∧
      ∃ c', w.loc 0 = .run (.done (.val c')) ∧ Moment.sum c' 9 = .ok (563660 / 6561) :=
  ⟨_, rfl, _, World.exec_steps (.refl _) (List.replicate 600 0), by decide +kernel, Shown.spec (by decide +kernel)⟩

/-- Growing the table before the goroutines start is enough: after `p` ran alone, cores whose exponents are in the table do not interfere. -/
theorem C61_grown_partial {α : Type} (p : Ask α) (w0 : World Unit α) (h0 : Steps (World.start Tab.init fun _ => p) w0)
    (cfg : T → Moment.Config K) (c : T → Moment.Core K) (hc : ∀ t, Moment.newCore (cfg t) = .ok (c t))
    (hs : ∀ t, ∀ k ∈ (cfg t).sums.getD [], k < (w0.tab.hdr.len : Int)) (xs : T → List K) (w : World T (Moment.Core K))
    (h : Steps (World.start w0.tab fun t => pushesA (c t) (xs t)) w) :
    SameAsAlone w (fun t => pushes (c t) (xs t)) ∧ ∀ t, ¬ Writes (w.loc t) := by
  have hg := (FInv.start (g := ()) (L := 8) (P := fun _ => p) Good.init le_rfl fun t ht => absurd rfl ht).steps h0
  have h8 := hg.len
  obtain ⟨n, hn⟩ : ∃ n, w0.tab.hdr.len = n + 1 := ⟨w0.tab.hdr.len - 1, by omega⟩
  have hw : ∀ t, (pushesA (c t) (xs t)).Within w0.tab.hdr.len := fun t => by
    refine pushesA_within (by omega) ?_ _
    rw [hn]
    exact newCore_len (hc t) fun k hk => by have := hs t k hk; omega
  refine ⟨fun t r hr => ?_, fun t => ?_⟩
  · have hi := ((FInv.start (g := t) hg.good le_rfl fun u _ => hw u).steps h).loc t
    rw [hr] at hi
    exact hi.1.trans (pushesA_eval ..)
  · rcases (tab_steps hg.good hw h).2 t with ⟨p, hp, _⟩ | ⟨n, k, hp, _⟩ <;> · rw [hp]; exact id

/-- One push alone to a core with exponent 12 grows the table to 13 entries. -/
example : ∃ c, Moment.newCore (⟨some [12], some 0, none⟩ : Moment.Config ℚ) = .ok c ∧
    ∃ w0 : World Unit (Moment.Core ℚ), Steps (World.start Tab.init fun _ => pushesA c [0]) w0 ∧ w0.tab.hdr.len = 13 :=
  ⟨_, rfl, _, World.exec_steps (.refl _) (List.replicate 30 ()), rfl⟩

/-- A core alone: the loop over the slice computes what the function `MathUtil.factorial` does. -/
theorem C61_alone_partial (cfg : Moment.Config K) (c : Moment.Core K) (_ : Moment.newCore cfg = .ok c) (xs : List K)
    (w : World Unit (Moment.Core K)) (h : Steps (World.start Tab.init fun _ => pushesA c xs) w) : SameAsAlone w (fun _ => pushes c xs) := by
  intro t r hr
  have hi := ((FInv.start (g := ()) (L := 8) (P := fun _ => pushesA c xs) Good.init le_rfl fun t ht => absurd rfl ht).steps h).loc t
  rw [hr] at hi
  exact hi.1.trans (pushesA_eval ..)

end Verif.Props
