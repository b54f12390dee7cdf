import Verif.Props.AutoFP
import Verif.Props.Fits

/-! # C89: `Autocov` and `Autocorr` with a window that is not exceeded -/

namespace Verif.Props
open Verif Verif.Spec Verif.FP

theorem fits_pushes {F : Type} {w : Nat} {ps : List F} (h : ps.length ≤ w) : Fits w (ps.map MOp.push) := by
  intro pre post e
  obtain ⟨l, r, rfl, rfl, rfl⟩ := List.map_eq_append_iff.1 e
  rw [JFP.since_pushes]
  rw [List.length_append] at h
  omega

/-- `Autocov` and `Autocorr` to the bit in any arithmetic. The window holds pairs, so `w + lag` values fit. -/
theorem C89_auto {F : Type} [GoOrd F] (A : Arith F) (corr : Bool) (lag w : Nat) (sqrt : F → F) (ops : List (MOp F))
    (h : (since ops).length ≤ w + lag) : aObs A corr lag w sqrt ops = aObs A corr lag 0 sqrt ops := by
  rcases Nat.lt_or_ge lag (since ops).length with hl | hl
  · obtain ⟨c, hn⟩ := JFP.auto_newCore A corr w
    obtain ⟨g, hg, hag⟩ := C89_joint A (cfg := JFP.autoConfig F corr w) (w := w) (by cases corr <;> rfl) hn
    have hg0 : JFP.newCore A (JFP.autoConfig F corr (0 : Nat)) = .val (.ok g) := by
      rw [← hg]; cases corr <;> rfl
    have hl' : (lagged lag (since ops)).length ≤ w := by rw [lagged_length]; omega
    have k := hag ((lagged lag (since ops)).map MOp.push) (fits_pushes hl')
    obtain ⟨e1, r1, -⟩ := JFP.auto_core A hn (JFP.lagged_arity lag (since ops))
    obtain ⟨e2, r2, -⟩ := JFP.auto_core A hg0 (JFP.lagged_arity lag (since ops))
    rw [r1, r2] at k
    obtain ⟨⟨-, -, -, k1, k2⟩, -⟩ := k
    rw [aObs_eq A hn r1 hl]
    have := aObs_eq A (lag := lag) (sqrt := sqrt) (ops := ops) hg0 r2 hl
    rw [Nat.cast_zero] at this
    rw [this, k1, k2]
  · rw [aObs_short A hl]
    exact (aObs_short (w := 0) A hl).symm

/-- Lag 1, window 2, three values: two pairs; the window is full. -/
example : (since ([.push 1, .push 2, .push 4] : List (MOp ℚ))).length ≤ 2 + 1 ∧
    aObs Arith.b64 false (1 : Nat) (2 : Nat) id [.push 1, .push 2, .push 4] = some (.ok 1, []) ∧
    aObs Arith.b64 false (1 : Nat) 0 id [.push 1, .push 2, .push 4] = some (.ok 1, []) := by
  refine ⟨by decide, ?_, ?_⟩ <;> decide +kernel

/-- One value more, and the results differ. -/
example : aObs Arith.b64 false (1 : Nat) (2 : Nat) id [.push 1, .push 2, .push 4, .push 4] ≠
    aObs Arith.b64 false (1 : Nat) 0 id [.push 1, .push 2, .push 4, .push 4] := by
  decide +kernel

end Verif.Props
